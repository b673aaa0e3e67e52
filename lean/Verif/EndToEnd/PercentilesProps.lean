import Verif.EndToEnd.PercentilesCall

/-! # Pipelines with percentiles are differentially private (C75) -/

set_option linter.unusedSectionVars false

namespace PDP.EndToEnd

open PDP PDP.Engine MeasureTheory
open PDP.Engine.Mechanism (computed)
open PDP.Engine.AddNoise (specOf)
open PDP.Budget (State Op MechType Out)
open PDP.Approx (Indist)

variable {R P K V A O : Type} [DecidableEq P] [DecidableEq K] [MeasurableSpace O]

/-! ### One call -/

theorem qParts_append (a b : List Part) : qParts (a ++ b) = qParts a ++ qParts b := by
  induction a with
  | nil => rfl
  | cons part a ih => cases part <;> simp [qParts, ih]

/-- The quantile combiner of a call: one for all percentiles, with the last budget. -/
theorem qParts_built {fmt : ℚ → String} {p : Params} {rs rs' : List Request} {parts : List Part}
    (h : createCompound fmt p rs = (.ok parts, rs')) :
    qParts parts = if p.metrics.filterMap Metric.percentile? = [] then []
      else [(rs'.length - 1, p.metrics.filterMap Metric.percentile?)] := by
  have h1 : ∀ rs, qParts (scalarParts p rs).1 = [] := by
    intro rs
    unfold scalarParts
    dsimp only
    split
    · rfl
    · split
      · rfl
      · split <;> split <;> rfl
  have h2 : ∀ rs, qParts (privacyIdPart p rs).1 = [] := by
    intro rs
    unfold privacyIdPart
    dsimp only
    split
    · split <;> rfl
    · rfl
  have h3 : ∀ rs, qParts (vectorPart p rs).1 = [] := by
    intro rs
    unfold vectorPart
    dsimp only
    split <;> rfl
  have h4 : ∀ rs, qParts (quantilePart p rs).1 = if p.metrics.filterMap Metric.percentile? = [] then []
      else [((quantilePart p rs).2.length - 1, p.metrics.filterMap Metric.percentile?)] := by
    intro rs
    unfold quantilePart
    dsimp only
    by_cases hq : p.metrics.filterMap Metric.percentile? = []
    · rw [if_neg (by simp [hq]), if_pos hq]; rfl
    · rw [if_pos hq, if_neg hq]
      simp [requestBudget, qParts]
  unfold createCompound at h
  dsimp only at h
  split at h
  · simp only [Prod.mk.injEq, Except.ok.injEq] at h
    obtain ⟨rfl, rfl⟩ := h
    rw [qParts_append, qParts_append, qParts_append, h1, h2, h3, h4]
    rfl
  · simp at h

theorem quantile_mem {fmt : ℚ → String} {p : Params} {rs rs' : List Request} {parts : List Part}
    (h : createCompound fmt p rs = (.ok parts, rs')) {i : ℕ} {ps : List ℚ} (hi : Part.quantile i ps ∈ parts) :
    i = rs'.length - 1 ∧ ps = p.metrics.filterMap Metric.percentile? ∧ ∃ x, Metric.percentile x ∈ p.metrics := by
  have hm := mem_qParts.mpr hi
  rw [qParts_built h] at hm
  split at hm
  · simp at hm
  · rename_i hne
    obtain ⟨rfl, rfl⟩ := Prod.mk.inj (List.mem_singleton.mp hm)
    refine ⟨rfl, rfl, ?_⟩
    obtain ⟨x, hx⟩ := List.exists_mem_of_ne_nil _ hne
    obtain ⟨m, hm, h⟩ := List.mem_filterMap.mp hx
    cases m <;> simp [Metric.percentile?] at h
    subst h
    exact ⟨_, hm⟩

/-- Bounds that a call with percentiles has. -/
theorem percentile_bounds {p : Params} {pub : Option (List K)} (hs : SupportedAny p pub) {x : ℚ} (hx : Metric.percentile x ∈ p.metrics) :
    ∃ lo hi l0 linf, p.minValue = some lo ∧ p.maxValue = some hi ∧ lo < hi ∧ p.maxPartitions = some l0 ∧
      p.maxPerPartition = some linf ∧ 1 ≤ l0 ∧ 1 ≤ linf := by
  obtain ⟨hmc, lo, hi, h1, h2, h3⟩ := hs.percentiles x hx
  rcases hs.bounds with ⟨m, -, q1, -⟩ | ⟨l0, linf, hl0, hl, q1, q2, q3⟩
  · rw [hmc] at q1; cases q1
  · exact ⟨lo, hi, l0, linf, h1, h2, h3, q2, q3, hl0, hl⟩

theorem qSpecs_nodup {parts : List Part} (h : (parts.flatMap Part.specs).Nodup) : (qSpecs parts).Nodup := by
  induction parts with
  | nil => exact List.nodup_nil
  | cons part parts ih =>
    rw [List.flatMap_cons, List.nodup_append] at h
    obtain ⟨-, h2, h3⟩ := h
    cases part <;> try exact ih h2
    case quantile i ps =>
      show (i :: qSpecs parts).Nodup
      refine List.nodup_cons.mpr ⟨fun hi => ?_, ih h2⟩
      obtain ⟨qs, hq⟩ := mem_qSpecs.mp hi
      exact h3 i (by simp [Part.specs]) i (List.mem_flatMap.mpr ⟨_, hq, by simp [Part.specs]⟩) rfl

/-- The results of the quantile combiners of a partition with the given lists of values. -/
noncomputable def quantilesOf (tree : TreeLibrary) (fmt : ℚ → String) (p : Params) (ε δ : ℕ → ℝ) (parts : List Part) (m : Multiset ℚ) :
    List Quantiles :=
  (qParts parts).map fun q => ⟨q.1, q.2.map (fun x => "percentile_" ++ fmt x), tree (argsOf p ε δ q.1 q.2) m⟩

theorem qCandidates_eq {tree : TreeLibrary} {fmt : ℚ → String} {sigma : ℝ → ℝ → ℝ → ℝ} {s : Specs} {p : Params} {ε δ : ℕ → ℝ} {b : Built}
    (hq : ∀ i ps, Part.quantile i ps ∈ b.parts → ∀ m, quantileOf tree s p i ps m = .ok (tree (argsOf p ε δ i ps) m))
    {f : K × (Combiner.compound (combinersOf sigma p b.parts)).Acc → Candidate K} (hf : ∀ e, candidate sigma s p b e = .ok (f e))
    {l : List (K × List ℚ)} {out : List (K × (Combiner.compound (combinersOf sigma p b.parts)).Acc)}
    (hC : IsCombine (Combiner.compound (combinersOf sigma p b.parts)).merge
      (l.map fun e => (e.1, (Combiner.compound (combinersOf sigma p b.parts)).create e.2)) out) :
    out.mapM (qCandidate tree fmt sigma s p b)
      = .ok (out.map fun e => ⟨f e, quantilesOf tree fmt p ε δ b.parts (allValues (valuesOf e.1 l))⟩) := by
  refine mapM_ok' _ _ _ fun e he => ?_
  unfold qCandidate
  rw [hf e, evalTrees_eq tree fmt sigma s p ε δ b.parts hq e.2.2 (contents_combined sigma p b.parts hC e he)]
  rfl

theorem find_quantilesOf (tree : TreeLibrary) (fmt : ℚ → String) (p : Params) (ε δ : ℕ → ℝ) {parts : List Part}
    (hn : (qSpecs parts).Nodup) (m : Multiset ℚ) (c : Candidate K) (i : ℕ) :
    (⟨c, quantilesOf tree fmt p ε δ parts m⟩ : QCandidate K).law i
      = if i ∈ qSpecs parts then tree (argsOf p ε δ i (((qParts parts).find? fun q => q.1 = i).elim [] Prod.snd)) m
        else Measure.dirac 0 := by
  unfold QCandidate.law quantilesOf
  rw [← qParts_specs] at *
  generalize qParts parts = l at *
  rw [List.find?_map]
  have hcomp : ((fun q : Quantiles => decide (q.spec = i)) ∘ fun q : ℕ × List ℚ =>
      (⟨q.1, q.2.map (fun x => "percentile_" ++ fmt x), tree (argsOf p ε δ q.1 q.2) m⟩ : Quantiles)) = fun q => decide (q.1 = i) := rfl
  rw [hcomp]
  cases hf : l.find? fun q => decide (q.1 = i) with
  | none =>
    rw [if_neg]
    · rfl
    · intro hi
      obtain ⟨q, hq, rfl⟩ := List.mem_map.mp hi
      have := List.find?_eq_none.mp hf q hq
      simp at this
  | some q =>
    have hq := List.mem_of_find?_eq_some hf
    have hi : q.1 = i := by simpa using List.find?_some hf
    rw [if_pos (List.mem_map.mpr ⟨q, hq, hi⟩)]
    subst hi
    rfl

/-- **One `aggregate` call with percentiles.** -/
theorem aggregate_callQ {lib : Library} (hlib : lib.Contract) {tree : TreeLibrary} (htree : TreeContract tree) {s : Specs} {ε δ : ℕ → ℝ}
    {p : Params} {pub : Option (List K)}
    (hs : SupportedAny p pub) {fmt : ℚ → String} {rs rs' : List Request} {b : Built} {key : R → K} {value : R → ℚ}
    (hb : build fmt rs (.aggregate p pub key value) = (.ok b, rs')) (hbo : BuiltOk s ε δ p.noiseKind b)
    (env : Env K) (henv : env.Lawful) (pid : R → P) (data : List R) (u : P)
    (hu : (Call.aggregate p pub key value).Promised pid data u) :
    ∃ c c', evalStepQ tree fmt lib.sigma s env pid data (.call (.aggregate p pub key value)) (.call b) = .ok c ∧
      evalStepQ tree fmt lib.sigma s env pid (removeId pid u data) (.call (.aggregate p pub key value)) (.call b) = .ok c' ∧
      ∃ g : GPair 0 (qDecision lib c) (qDecision lib c') (qOutput c) (qOutput c'),
        g.e ≤ (b.specs.map ε).sum ∧ g.d ≤ (b.specs.map δ).sum := by
  obtain ⟨⟨rs1, hcc⟩, -⟩ := build_aggregate hb
  obtain ⟨en, hen, ha, ha', hE⟩ := accumulators_lists env.backend henv.backend henv.keyLocal p hs.bounds
    (Combiner.compound (combinersOf lib.sigma p b.parts)).sampling (Combiner.compound (combinersOf lib.sigma p b.parts)).create
    pub (extract pid key value data) u hu.1
  set l := lists pub en with hl
  set l' := lists pub (en.filter fun e => e.1.1 ≠ u) with hl'
  have hperm : ∀ k, (valuesOf k l).Perm (valuesOf k (entriesOf u en) ++ valuesOf k l') := lists_perm pub en u
  have hC := henv.combine (Combiner.compound (combinersOf lib.sigma p b.parts)).merge
    (l.map fun e => (e.1, (Combiner.compound (combinersOf lib.sigma p b.parts)).create e.2))
  have hC' := henv.combine (Combiner.compound (combinersOf lib.sigma p b.parts)).merge
    (l'.map fun e => (e.1, (Combiner.compound (combinersOf lib.sigma p b.parts)).create e.2))
  set out := env.combine (Combiner.compound (combinersOf lib.sigma p b.parts)).merge
    (l.map fun e => (e.1, (Combiner.compound (combinersOf lib.sigma p b.parts)).create e.2)) with hout
  set out' := env.combine (Combiner.compound (combinersOf lib.sigma p b.parts)).merge
    (l'.map fun e => (e.1, (Combiner.compound (combinersOf lib.sigma p b.parts)).create e.2)) with hout'
  obtain ⟨hp1, hp2, hcand, q, -, hq1, hq2⟩ := aggregate_core hlib hs hb hbo env henv pid data u hu ha ha'
  have hspec : ∀ i ps, Part.quantile i ps ∈ b.parts → SpecOk s ε δ i p.noiseKind.mechanism := fun i ps h =>
    hbo.parts _ h i (by simp [Part.specs])
  have hq : ∀ i ps, Part.quantile i ps ∈ b.parts → ∀ m, quantileOf tree s p i ps m = .ok (tree (argsOf p ε δ i ps) m) := by
    intro i ps h m
    obtain ⟨-, -, x, hx⟩ := quantile_mem hcc h
    obtain ⟨lo, hi, l0, linf, b1, b2, b3, b4, b5, -⟩ := percentile_bounds hs hx
    exact quantileOf_ok tree (hspec i ps h) b1 b2 b4 b5 ps m
  have hn := qSpecs_nodup hbo.nodup
  let psOf : ℕ → List ℚ := fun i => ((qParts b.parts).find? fun q => q.1 = i).elim [] Prod.snd
  let val : List (K × List ℚ) → ℕ → K → Measure (ℕ → ℝ) := fun l i k => tree (argsOf p ε δ i (psOf i)) (allValues (valuesOf k l))
  have hclose : ∀ i ∈ qSpecs b.parts, Close (ε i) (δ i) (val l i) (val l' i) ∧ Close (ε i) (δ i) (val l' i) (val l i) := by
    intro i hi
    obtain ⟨ps, h⟩ := mem_qSpecs.mp hi
    obtain ⟨-, -, x, hx⟩ := quantile_mem hcc h
    obtain ⟨lo, hi, l0, linf, b1, b2, b3, b4, b5, b6, b7⟩ := percentile_bounds hs hx
    have hsi := hspec i ps h
    have hsamp := sampling_quantile lib.sigma p h
    refine tree_close htree (argsOf p ε δ i (psOf i)) ?_ hsi.eps hsi.delta ?_ ?_ ?_ hperm ?_ ?_
    · simpa [argsOf, b1, b2] using b3
    · intro hk
      refine hsi.pos ?_
      rw [show p.noiseKind = .gaussian from hk]
      simp [NoiseKind.mechanism]
    · simpa [argsOf, b4] using b6
    · simpa [argsOf, b5] using b7
    · simpa [argsOf, b4] using hE.partitions l0 b4
    · intro k
      simpa [argsOf, b5] using hE.perPartition linf b5 (Or.inl hsamp) k
  let f : K × (Combiner.compound (combinersOf lib.sigma p b.parts)).Acc → Candidate K :=
    fun e => ⟨e.1, gateFn lib.sigma s p b e.2, numbersOf lib.sigma s p b.parts e⟩
  let C : List (QCandidate K) := out.map fun e => ⟨f e, quantilesOf tree fmt p ε δ b.parts (allValues (valuesOf e.1 l))⟩
  let C' : List (QCandidate K) := out'.map fun e => ⟨f e, quantilesOf tree fmt p ε δ b.parts (allValues (valuesOf e.1 l'))⟩
  have hbase : C.map QCandidate.base = out.map f := by simp [C]
  have hbase' : C'.map QCandidate.base = out'.map f := by simp [C']
  have hv : ∀ c ∈ C, ∀ i, c.law i = if i ∈ qSpecs b.parts then val l i c.base.key else Measure.dirac 0 := by
    intro c hc i
    obtain ⟨e, -, rfl⟩ := List.mem_map.mp hc
    exact find_quantilesOf tree fmt p ε δ hn _ _ i
  have hv' : ∀ c ∈ C', ∀ i, c.law i = if i ∈ qSpecs b.parts then val l' i c.base.key else Measure.dirac 0 := by
    intro c hc i
    obtain ⟨e, -, rfl⟩ := List.mem_map.mp hc
    exact find_quantilesOf tree fmt p ε δ hn _ _ i
  obtain ⟨q', hq'⟩ : ∃ q' : Pair lib (C.map QCandidate.base) (C'.map QCandidate.base), q'.e = q.e ∧ q'.d = q.d := by
    rw [hbase, hbase']
    exact ⟨q, rfl, rfl⟩
  obtain ⟨g, g1, g2⟩ := joint_pair q' (qSpecs b.parts) hn (val l) (val l') ε δ
    (fun i hi => by obtain ⟨ps, h⟩ := mem_qSpecs.mp hi; exact (hspec i ps h).delta)
    (fun i k => htree.prob _ _) (fun i k => htree.prob _ _) hv hv' (fun i hi => (hclose i hi).1) (fun i hi => (hclose i hi).2)
  refine ⟨C, C', ?_, ?_, g, ?_, ?_⟩
  · simp only [evalStepQ]
    rw [hp1]
    exact qCandidates_eq hq hcand hC
  · simp only [evalStepQ]
    rw [hp2]
    exact qCandidates_eq hq hcand hC'
  · rw [g1, hq'.1]; exact hq1
  · rw [g2, hq'.2]; exact hq2

/-! ### All steps -/

theorem law_none (c : Candidate K) (i : ℕ) : (⟨c, []⟩ : QCandidate K).law i = Measure.dirac 0 := rfl

/-- A step without percentiles. -/
theorem plain_pair {lib : Library} {x x' : List (Candidate K)} (q : Pair lib x x') :
    ∃ g : GPair 0 (qDecision lib (x.map fun c => (⟨c, []⟩ : QCandidate K))) (qDecision lib (x'.map fun c => (⟨c, []⟩ : QCandidate K)))
      (qOutput (x.map fun c => (⟨c, []⟩ : QCandidate K))) (qOutput (x'.map fun c => (⟨c, []⟩ : QCandidate K))),
      g.e = q.e ∧ g.d = q.d := by
  have hb : ∀ x : List (Candidate K), (x.map fun c => (⟨c, []⟩ : QCandidate K)).map QCandidate.base = x := by
    intro x
    rw [List.map_map]; exact List.map_id x
  obtain ⟨q', h1, h2⟩ : ∃ q' : Pair lib ((x.map fun c => (⟨c, []⟩ : QCandidate K)).map QCandidate.base)
      ((x'.map fun c => (⟨c, []⟩ : QCandidate K)).map QCandidate.base), q'.e = q.e ∧ q'.d = q.d := by
    rw [hb, hb]; exact ⟨q, rfl, rfl⟩
  have hl : ∀ x : List (Candidate K), ∀ c ∈ x.map (fun c => (⟨c, []⟩ : QCandidate K)), ∀ i, c.law i
      = if i ∈ ([] : List ℕ) then Measure.dirac 0 else Measure.dirac 0 := by
    intro x c hc i
    obtain ⟨y, -, rfl⟩ := List.mem_map.mp hc
    rw [if_neg (by simp)]; rfl
  obtain ⟨g, g1, g2⟩ := joint_pair q' [] List.nodup_nil (fun _ _ => Measure.dirac 0) (fun _ _ => Measure.dirac 0) (fun _ => 0) (fun _ => 0)
    (by simp) (fun _ _ => inferInstance) (fun _ _ => inferInstance) (hl x) (hl x') (by simp) (by simp)
  exact ⟨g, by rw [g1, h1]; simp, by rw [g2, h2]; simp⟩

theorem empty_pairQ (lib : Library) : ∃ g : GPair 0 (qDecision lib ([] : List (QCandidate K))) (qDecision lib ([] : List (QCandidate K)))
    (qOutput []) (qOutput []), g.e = 0 ∧ g.d = 0 := by
  obtain ⟨q, h1, h2⟩ := empty_pair (K := K) lib
  obtain ⟨g, g1, g2⟩ := plain_pair q
  exact ⟨g, g1.trans h1, g2.trans h2⟩

theorem stepQ_pair {lib : Library} (hlib : lib.Contract) {tree : TreeLibrary} (htree : TreeContract tree) {s : Specs} {ε δ : ℕ → ℝ}
    {fmt : ℚ → String} (env : Env K) (henv : env.Lawful)
    (pid : R → P) (data : List R) (u : P) {c : Step R K} (hs : c.SupportedAny) (hu : c.Promised pid data u) {rs rs' : List Request} {b ops}
    (hb : buildStep fmt rs c = .ok (b, rs', ops)) (hbo : StepOk s ε δ c b) :
    ∃ x x', evalStepQ tree fmt lib.sigma s env pid data c b = .ok x ∧
      evalStepQ tree fmt lib.sigma s env pid (removeId pid u data) c b = .ok x' ∧
      ∃ g : GPair 0 (qDecision lib x) (qDecision lib x') (qOutput x) (qOutput x'),
        g.e ≤ (b.specs.map ε).sum ∧ g.d ≤ (b.specs.map δ).sum := by
  have plain : c.Supported → (∀ d, evalStepQ tree fmt lib.sigma s env pid d c b =
        match evalStep lib.sigma s env pid d c b with
        | .error e => .error e
        | .ok x => .ok (x.map fun c => (⟨c, []⟩ : QCandidate K))) →
      ∃ x x', evalStepQ tree fmt lib.sigma s env pid data c b = .ok x ∧
        evalStepQ tree fmt lib.sigma s env pid (removeId pid u data) c b = .ok x' ∧
        ∃ g : GPair 0 (qDecision lib x) (qDecision lib x') (qOutput x) (qOutput x'),
          g.e ≤ (b.specs.map ε).sum ∧ g.d ≤ (b.specs.map δ).sum := by
    intro hs' heq
    obtain ⟨hp, -⟩ := buildStep_spec hs hb
    obtain ⟨x, x', h1, h2, q, h3, h4⟩ := step_pair hlib env henv pid data u hs' hu hp hbo
    obtain ⟨g, g1, g2⟩ := plain_pair q
    exact ⟨_, _, by rw [heq, h1], by rw [heq, h2], g, by rw [g1]; exact h3, by rw [g2]; exact h4⟩
  cases c with
  | noise p f => exact plain hs fun d => by cases b <;> rfl
  | call c =>
    cases c with
    | select p key => exact plain hs fun d => by cases b <;> rfl
    | aggregate p pub key value =>
      cases b with
      | noise i sens => exact hbo.elim
      | call b =>
        simp only [buildStep] at hb
        rcases hx : build fmt rs (.aggregate p pub key value) with ⟨r, rs1⟩
        rw [hx] at hb
        rcases r with e | b'
        · simp at hb
        · simp only [Except.ok.injEq, Prod.mk.injEq, BuiltStep.call.injEq] at hb
          obtain ⟨rfl, rfl, rfl⟩ := hb
          exact aggregate_callQ hlib htree hs hx hbo env henv pid data u hu

theorem xstepQ_pair {lib : Library} (hlib : lib.Contract) {tree : TreeLibrary} (htree : TreeContract tree) {s : Specs} {ε δ : ℕ → ℝ}
    {cls : ℕ → CustomClass V A O} {fmt : ℚ → String}
    (o0 : O) (env : Env K) (henv : env.Lawful) (pid : R → P) (data : List R) (u : P) {c : XStep R K V} (hs : c.SupportedAny cls)
    (hu : c.Promised pid data u) {rs rs' : List Request} {st st1 st' : Store} {b ops}
    (hb : buildX cls fmt rs st c = .ok (b, rs', ops, st1)) (hbo : XOk cls s ε δ st' c b) :
    ∃ x x', evalXStepQ tree fmt cls lib.sigma s st' env pid data c b = .ok x ∧
      evalXStepQ tree fmt cls lib.sigma s st' env pid (removeId pid u data) c b = .ok x' ∧
      ∃ (q : GPair 0 (qDecision lib x.1) (qDecision lib x'.1) (qOutput x.1) (qOutput x'.1))
        (g : GPair o0 (customDecision lib x.2) (customDecision lib x'.2) (customOutput o0 x.2) (customOutput o0 x'.2)),
        q.e + g.e ≤ (b.specs.map ε).sum ∧ q.d + g.d ≤ (b.specs.map δ).sum := by
  cases c with
  | step c =>
    cases b with
    | custom l sel => exact hbo.elim
    | step b =>
      simp only [buildX] at hb
      rcases hx : buildStep fmt rs c with e | ⟨b', rs1, ops1⟩
      · rw [hx] at hb; cases hb
      · rw [hx] at hb
        simp only [Except.ok.injEq, Prod.mk.injEq, BuiltX.step.injEq] at hb
        obtain ⟨rfl, rfl, rfl, rfl⟩ := hb
        obtain ⟨x, x', h1, h2, q, h3, h4⟩ := stepQ_pair hlib htree env henv pid data u hs hu hx hbo
        obtain ⟨g, g1, g2⟩ := empty_custom (K := K) lib o0
        refine ⟨(x, []), (x', []), by simp only [evalXStepQ, h1], by simp only [evalXStepQ, h2], q, g, ?_, ?_⟩
        · rw [g1, add_zero]; exact h3
        · rw [g2, add_zero]; exact h4
  | custom c =>
    cases b with
    | step b => exact hbo.elim
    | custom l sel =>
      obtain ⟨⟨z, z1, z2, z3⟩, h2, h3⟩ := hbo
      obtain ⟨x, x', e1, e2, g, g1, g2⟩ := custom_call hlib (show c.Supported cls from hs) z1 z3 h2 h3 o0 env henv pid data u hu
      obtain ⟨q, q1, q2⟩ := empty_pairQ (K := K) lib
      refine ⟨([], x), ([], x'), by simp only [evalXStepQ, e1], by simp only [evalXStepQ, e2], q, g, ?_, ?_⟩
      · rw [q1, zero_add]; rw [z2] at g1; exact g1
      · rw [q2, zero_add]; rw [z2] at g2; exact g2

theorem xQ_pairs {lib : Library} (hlib : lib.Contract) {tree : TreeLibrary} (htree : TreeContract tree) {s : Specs} {ε δ : ℕ → ℝ}
    {cls : ℕ → CustomClass V A O} {fmt : ℚ → String}
    (o0 : O) (env : ℕ → Env K) (henv : ∀ j, (env j).Lawful) (pid : R → P) (data : List R) (u : P) {cs : List (XStep R K V)}
    (hs : ∀ c ∈ cs, c.SupportedAny cls) (hu : ∀ c ∈ cs, c.Promised pid data u) (st' : Store) :
    ∀ (j : ℕ) {rs : List Request} {st : Store} {bs ops st2}, planX cls fmt rs st cs = .ok (bs, ops, st2) →
      List.Forall₂ (XOk cls s ε δ st') cs bs →
      ∃ L L', evalXQ tree fmt cls lib.sigma s st' env pid data j cs bs = .ok L ∧
        evalXQ tree fmt cls lib.sigma s st' env pid (removeId pid u data) j cs bs = .ok L' ∧
        L.length = cs.length ∧ L'.length = cs.length ∧
        ∃ (p : ∀ j, GPair 0 (qDecision lib ((L.map Prod.fst).getD j [])) (qDecision lib ((L'.map Prod.fst).getD j []))
            (qOutput ((L.map Prod.fst).getD j [])) (qOutput ((L'.map Prod.fst).getD j [])))
          (g : ∀ j, GPair o0 (customDecision lib ((L.map Prod.snd).getD j [])) (customDecision lib ((L'.map Prod.snd).getD j []))
            (customOutput o0 ((L.map Prod.snd).getD j [])) (customOutput o0 ((L'.map Prod.snd).getD j []))),
          ((List.range cs.length).map fun j => (p j).e).sum + ((List.range cs.length).map fun j => (g j).e).sum
            ≤ ((bs.flatMap BuiltX.specs).map ε).sum ∧
          ((List.range cs.length).map fun j => (p j).d).sum + ((List.range cs.length).map fun j => (g j).d).sum
            ≤ ((bs.flatMap BuiltX.specs).map δ).sum := by
  induction cs with
  | nil =>
    intro j rs st bs ops st2 h _
    simp only [planX, Except.ok.injEq, Prod.mk.injEq] at h
    obtain ⟨rfl, rfl, rfl⟩ := h
    obtain ⟨q, -, -⟩ := empty_pairQ (K := K) lib
    obtain ⟨g, -, -⟩ := empty_custom (K := K) lib o0
    exact ⟨[], [], rfl, rfl, rfl, rfl, fun _ => q, fun _ => g, by simp, by simp⟩
  | cons c cs ih =>
    intro j rs st bs ops st2 h hbo
    rw [planX] at h
    rcases hb : buildX cls fmt rs st c with e | ⟨b, rs1, ops1, st1⟩
    · rw [hb] at h; cases h
    · rw [hb] at h
      dsimp only at h
      rcases hp : planX cls fmt rs1 st1 cs with e | ⟨bs', ops', st3⟩
      · rw [hp] at h; cases h
      · rw [hp] at h
        simp only [Except.ok.injEq, Prod.mk.injEq] at h
        obtain ⟨rfl, rfl, rfl⟩ := h
        cases hbo with
        | cons hbo1 hbo2 =>
        obtain ⟨x, x', h1, h2, q, gq, hq1, hq2⟩ := xstepQ_pair hlib htree o0 (env j) (henv j) pid data u (hs c (by simp)) (hu c (by simp))
          hb hbo1
        obtain ⟨L, L', g1, g2, g3, g4, p, g, g5, g6⟩ := ih (fun c hc => hs c (by simp [hc])) (fun c hc => hu c (by simp [hc]))
          (j + 1) hp hbo2
        let p' : ∀ j, GPair 0 (qDecision lib (((x :: L).map Prod.fst).getD j [])) (qDecision lib (((x' :: L').map Prod.fst).getD j []))
            (qOutput (((x :: L).map Prod.fst).getD j [])) (qOutput (((x' :: L').map Prod.fst).getD j [])) := fun j =>
          match j with
          | 0 => q
          | j + 1 => p j
        let g' : ∀ j, GPair o0 (customDecision lib (((x :: L).map Prod.snd).getD j []))
            (customDecision lib (((x' :: L').map Prod.snd).getD j [])) (customOutput o0 (((x :: L).map Prod.snd).getD j []))
            (customOutput o0 (((x' :: L').map Prod.snd).getD j [])) := fun j =>
          match j with
          | 0 => gq
          | j + 1 => g j
        refine ⟨x :: L, x' :: L', by simp only [evalXQ, h1, g1], by simp only [evalXQ, h2, g2], by simp [g3], by simp [g4], p', g', ?_, ?_⟩
        · rw [List.length_cons, sum_range_cons, sum_range_cons, List.flatMap_cons, List.map_append, List.sum_append]
          have : (q.e + gq.e) + (((List.range cs.length).map fun j => (p j).e).sum + ((List.range cs.length).map fun j => (g j).e).sum)
              ≤ (b.specs.map ε).sum + ((bs'.flatMap BuiltX.specs).map ε).sum := add_le_add hq1 g5
          refine le_trans (le_of_eq ?_) this
          show q.e + ((List.range cs.length).map fun j => (p j).e).sum + (gq.e + ((List.range cs.length).map fun j => (g j).e).sum) = _
          ring
        · rw [List.length_cons, sum_range_cons, sum_range_cons, List.flatMap_cons, List.map_append, List.sum_append]
          have : (q.d + gq.d) + (((List.range cs.length).map fun j => (p j).d).sum + ((List.range cs.length).map fun j => (g j).d).sum)
              ≤ (b.specs.map δ).sum + ((bs'.flatMap BuiltX.specs).map δ).sum := add_le_add hq2 g6
          refine le_trans (le_of_eq ?_) this
          show q.d + ((List.range cs.length).map fun j => (p j).d).sum + (gq.d + ((List.range cs.length).map fun j => (g j).d).sum) = _
          ring

theorem gpair_d_nonneg {Λ X : Type} [DecidableEq Λ] [MeasurableSpace X] {x0 : X} {D D' : K → Measure (Bool × ℝ)} {N N' : K → Λ → Measure X}
    (p : GPair x0 D D' N N') : 0 ≤ p.d := by
  unfold GPair.d
  refine add_nonneg p.gd_nonneg (List.sum_nonneg ?_)
  intro y hy
  obtain ⟨l, hl, rfl⟩ := List.mem_map.mp hy
  exact p.vd_nonneg l hl

/-- **C75.**  A pipeline of any `aggregate` calls whose metrics may also have PERCENTILE, and calls as in C74, on one naive
accountant with total budget `(e, d)` is `(e, d)`-differentially private, if PyDP's quantile trees keep their contract
(`TreeContract`) and the rest is as in C74. -/
theorem C75_percentile_pipeline_is_differentially_private (fmt : ℚ → String) (lib : Library) (hlib : lib.Contract)
    (tree : TreeLibrary) (htree : TreeContract tree)
    (cls : ℕ → CustomClass V A O) (o0 : O) {e d : ℚ} {num ws s0} (h0 : Budget.init e d num ws = .ok s0) (cs : List (XStep R K V))
    (hs : ∀ c ∈ cs, c.SupportedAny cls) (hn : (cs.flatMap XStep.objects).Nodup)
    (hd : (∃ c ∈ cs, c.NeedsDelta cls) → 0 < d) {st bs ops st'} (hp : planX cls fmt [] st cs = .ok (bs, ops, st'))
    (hc : (Budget.step (Budget.run s0 ops).1 .compute).2 = .unit)
    {Ω : Type} [MeasurableSpace Ω] (μ : Measure Ω) [IsProbabilityMeasure μ] (env : Ω → ℕ → Env K)
    (henv : ∀ ω j, (env ω j).Lawful) (pid : R → P) (data : List R) (u : P) (hu : ∀ c ∈ cs, c.Promised pid data u) :
    let s := specOf (Budget.step (Budget.run s0 ops).1 .compute).1
    ∃ L L' : Ω → List (List (QCandidate K) × List (CustomCandidate K O)),
      (∀ ω, evalXQ tree fmt cls lib.sigma s st' (env ω) pid data 0 cs bs = .ok (L ω) ∧
        evalXQ tree fmt cls lib.sigma s st' (env ω) pid (data.filter fun r => pid r ≠ u) 0 cs bs = .ok (L' ω)) ∧
      ∀ (U : Finset (ℕ × K)) (S : Finset QLabel) (T : Finset ℕ),
        (∀ ω, IsProbabilityMeasure (observedQ lib o0 U S T (L ω)) ∧ IsProbabilityMeasure (observedQ lib o0 U S T (L' ω))) ∧
        ∀ B, MeasurableSet B →
          ∫⁻ ω, observedQ lib o0 U S T (L ω) B ∂μ
            ≤ ENNReal.ofReal (Real.exp e) * ∫⁻ ω, observedQ lib o0 U S T (L' ω) B ∂μ + ENNReal.ofReal d ∧
          ∫⁻ ω, observedQ lib o0 U S T (L' ω) B ∂μ
            ≤ ENNReal.ofReal (Real.exp e) * ∫⁻ ω, observedQ lib o0 U S T (L ω) B ∂μ + ENNReal.ofReal d := by
  intro s
  obtain ⟨hplain, -, new, hreq, hspecs, hrq, hnd⟩ := planX_spec hs hn hp
  obtain ⟨ε, δ, hok, hε, hδ⟩ := budgets_published hplain hreq h0 (fun r hr hne => hd (hnd r hr hne)) hc
  have hbo : List.Forall₂ (XOk cls s ε δ st') cs bs := hrq.imp fun c b h => xOk_of_requested hok (by rwa [List.nil_append] at h)
  have key := fun ω => xQ_pairs hlib htree o0 (env ω) (henv ω) pid data u hs hu st' 0 hp hbo
  rw [List.length_nil] at hspecs
  rw [hspecs] at key
  choose L L' a1 a2 a3 a4 p g a5 a6 using key
  have hempty : ∀ (M : List (List (QCandidate K) × List (CustomCandidate K O))) (j : ℕ) (k : K), M.length ≤ j →
      customDecision lib ((M.map Prod.snd).getD j []) k = Measure.dirac (false, 0) := by
    intro M j k hj
    rw [getD_of_ge _ _ (by simpa using hj)]
    rfl
  have hemptyQ : ∀ (M : List (List (QCandidate K) × List (CustomCandidate K O))) (j : ℕ) (k : K), M.length ≤ j →
      qDecision lib ((M.map Prod.fst).getD j []) k = Measure.dirac (false, 0) := by
    intro M j k hj
    rw [getD_of_ge _ _ (by simpa using hj)]
    rfl
  have hsn : ∀ (ω) , 0 ≤ ((List.range cs.length).map fun j => (p ω j).d).sum ∧ 0 ≤ ((List.range cs.length).map fun j => (g ω j).d).sum := by
    intro ω
    constructor <;> refine List.sum_nonneg ?_ <;> intro y hy <;> obtain ⟨j, -, rfl⟩ := List.mem_map.mp hy
    · exact gpair_d_nonneg _
    · exact gpair_d_nonneg _
  refine ⟨L, L', fun ω => ⟨a1 ω, a2 ω⟩, fun U S T => ?_⟩
  have q1 : ∀ ω, IsProbabilityMeasure (veiledLaw 0 U S (fun j => qDecision lib (((L ω).map Prod.fst).getD j []))
      fun j => qOutput (((L ω).map Prod.fst).getD j [])) := fun ω => veiledLaw_prob (p ω) U S
  have q1' : ∀ ω, IsProbabilityMeasure (veiledLaw 0 U S (fun j => qDecision lib (((L' ω).map Prod.fst).getD j []))
      fun j => qOutput (((L' ω).map Prod.fst).getD j [])) := fun ω => veiledLaw_prob (fun j => (p ω j).swap) U S
  have q2 : ∀ ω, IsProbabilityMeasure (veiledLaw o0 U T (fun j => customDecision lib (((L ω).map Prod.snd).getD j []))
      fun j => customOutput o0 (((L ω).map Prod.snd).getD j [])) := fun ω => veiledLaw_prob (g ω) U T
  have q2' : ∀ ω, IsProbabilityMeasure (veiledLaw o0 U T (fun j => customDecision lib (((L' ω).map Prod.snd).getD j []))
      fun j => customOutput o0 (((L' ω).map Prod.snd).getD j [])) := fun ω => veiledLaw_prob (fun j => (g ω j).swap) U T
  refine ⟨fun ω => ⟨?_, ?_⟩, fun B hB => ?_⟩
  · unfold observedQ; infer_instance
  · unfold observedQ; infer_instance
  · have fin : ∀ f g : Ω → ENNReal, (∀ ω, f ω ≤ ENNReal.ofReal (Real.exp e) * g ω + ENNReal.ofReal d) →
        ∫⁻ ω, f ω ∂μ ≤ ENNReal.ofReal (Real.exp e) * ∫⁻ ω, g ω ∂μ + ENNReal.ofReal d := by
      intro f g hfg
      refine (lintegral_mono hfg).trans ?_
      rw [lintegral_add_right _ measurable_const, lintegral_const_mul' _ _ ENNReal.ofReal_ne_top]
      simp
    constructor
    · refine fin _ _ fun ω => ?_
      have i1 := veiled_indist cs.length (p ω) (fun j k hj => hemptyQ _ j k (by rw [a3 ω]; exact hj))
        (fun j k hj => hemptyQ _ j k (by rw [a4 ω]; exact hj)) U S
      have i2 := veiled_indist cs.length (g ω) (fun j k hj => hempty _ j k (by rw [a3 ω]; exact hj))
        (fun j k hj => hempty _ j k (by rw [a4 ω]; exact hj)) U T
      exact ((i1.prod i2 (hsn ω).1 (hsn ω).2).mono ((a5 ω).trans hε) ((a6 ω).trans hδ)) B hB
    · refine fin _ _ fun ω => ?_
      have i1 := veiled_indist cs.length (fun j => (p ω j).swap) (fun j k hj => hemptyQ _ j k (by rw [a4 ω]; exact hj))
        (fun j k hj => hemptyQ _ j k (by rw [a3 ω]; exact hj)) U S
      have i2 := veiled_indist cs.length (fun j => (g ω j).swap) (fun j k hj => hempty _ j k (by rw [a4 ω]; exact hj))
        (fun j k hj => hempty _ j k (by rw [a3 ω]; exact hj)) U T
      exact ((i1.prod i2 (hsn ω).1 (hsn ω).2).mono ((a5 ω).trans hε) ((a6 ω).trans hδ)) B hB

end PDP.EndToEnd
