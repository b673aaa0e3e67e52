import Verif.EndToEnd.PercentilesProps
import Verif.EndToEnd.CustomMore

/-! # Pipelines with percentiles: exceptions, budgets, what is released, and what is observed (C75) -/

set_option linter.unusedSectionVars false

namespace PDP.EndToEnd

open PDP PDP.Engine MeasureTheory
open PDP.Engine.Mechanism (computed)
open PDP.Engine.AddNoise (specOf)
open PDP.Budget (State Op MechType Out)
open PDP.Approx (Indist)

variable {R P K V A O : Type} [DecidableEq P] [DecidableEq K] [MeasurableSpace O]

/-! ### Exceptions -/

theorem expectedNames_named (fmt : ℚ → String) (p : Params) :
    (expectedNames fmt p).Nodup ↔ ((p.metrics.filterMap Metric.percentile?).map fmt).Nodup := by
  unfold expectedNames
  have hm : (p.metrics.filterMap Metric.percentile?).map (fun p => "percentile_" ++ fmt p)
      = ((p.metrics.filterMap Metric.percentile?).map fmt).map fun s => "percentile_" ++ s := by
    rw [List.map_map]; rfl
  rw [hm]
  generalize (p.metrics.filterMap Metric.percentile?).map fmt = ps
  have h1 : ∀ f : List String, f.Sublist fixedNames → ((f ++ ps.map fun s => "percentile_" ++ s).Nodup ↔ ps.Nodup) := by
    intro f hs
    have hfn : f.Nodup := List.Nodup.sublist hs (by decide)
    rw [List.nodup_append]
    constructor
    · intro h; exact h.2.1.of_map _
    · intro h
      refine ⟨hfn, h.map (fun a b h => by simpa [String.ext_iff] using h), ?_⟩
      intro a ha b hb hab
      obtain ⟨q, -, rfl⟩ := List.mem_map.mp hb
      exact percentile_not_fixed _ (hs.subset (hab ▸ ha))
  apply h1
  have key : ∀ (c : Prop) [Decidable c] (s : String), (if c then [s] else []).Sublist [s] := by
    intro c _ s; split <;> simp
  exact ((((((key _ _).append (key _ _)).append (key _ _)).append (key _ _)).append (key _ _)).append (key _ _))

/-- **C75** (pipelines run).  For supported steps whose percentiles have distinct names the driver raises no exception: neither the
engine nor any call on the accountant, and `compute_budgets` succeeds. -/
theorem C75_supported_pipeline_runs (fmt : ℚ → String) (cls : ℕ → CustomClass V A O) (cs : List (XStep R K V))
    (hs : ∀ c ∈ cs, c.SupportedAny cls) (hnames : ∀ c ∈ cs, c.Named fmt) {e d : ℚ} {num ws s0} (h0 : Budget.init e d num ws = .ok s0)
    (hd : (∃ c ∈ cs, c.NeedsDelta cls) → 0 < d) (ha : AnnouncedX num ws cs) (st : Store) :
    ∃ bs ops st', planX cls fmt [] st cs = .ok (bs, ops, st') ∧ (∀ err, Out.raised err ∉ (Budget.run s0 ops).2) ∧
      (Budget.step (Budget.run s0 ops).1 .compute).2 = .unit := by
  refine planX_runs fmt cls cs hs (fun c hc rs => ?_) h0 hd ha st
  cases c with
  | select p key => exact ⟨_, _, rfl⟩
  | aggregate p pub key value =>
    obtain ⟨new, parts, h1, h2, -⟩ := createCompound_spec fmt p rs
    have hnd : (parts.flatMap (Part.names fmt)).Nodup := by
      rw [h2.nodup_iff]
      exact (expectedNames_named fmt p).mpr (hnames _ hc)
    rw [if_pos hnd] at h1
    simp only [build, h1]
    split
    · exact ⟨_, _, rfl⟩
    · exact ⟨_, _, rfl⟩

/-- **C75** (repeated percentiles).  If two percentiles of a call have the same name, the call raises `ValueError`, so that no
pipeline with such a call runs. -/
theorem C75_repeated_percentile_is_rejected (fmt : ℚ → String) (cls : ℕ → CustomClass V A O) (c : XStep R K V) (hc : ¬ c.Named fmt) :
    (∀ rs st, buildX cls fmt rs st c = .error .valueError) ∧
    ∀ (cs : List (XStep R K V)) rs st bs ops st', c ∈ cs → planX cls fmt rs st cs ≠ .ok (bs, ops, st') := by
  have h1 : ∀ rs st, buildX cls fmt rs st c = .error .valueError := by
    intro rs st
    cases c with
    | custom c => exact absurd trivial hc
    | step c =>
      cases c with
      | noise p f => exact absurd trivial hc
      | call c =>
        cases c with
        | select p key => exact absurd trivial hc
        | aggregate p pub key value =>
          obtain ⟨new, parts, h1, h2, -⟩ := createCompound_spec fmt p rs
          have hnd : ¬ (parts.flatMap (Part.names fmt)).Nodup := by
            rw [h2.nodup_iff, expectedNames_named fmt p]
            exact hc
          rw [if_neg hnd] at h1
          simp only [buildX, buildStep, build, h1]
  refine ⟨h1, fun cs => ?_⟩
  induction cs with
  | nil => intro rs st bs ops st' hm; simp at hm
  | cons x cs ih =>
    intro rs st bs ops st' hm h
    rw [planX] at h
    rcases List.mem_cons.mp hm with rfl | hm
    · rw [h1] at h; cases h
    · rcases hb : buildX cls fmt rs st x with e | ⟨b, rs1, ops1, st1⟩
      · rw [hb] at h; cases h
      · rw [hb] at h
        dsimp only at h
        rcases hp : planX cls fmt rs1 st1 cs with e | ⟨bs', ops', st3⟩
        · rw [hp] at h; cases h
        · exact ih _ _ _ _ _ hm hp

/-! ### Budgets -/

/-- **C75** (one budget for all percentiles).  A call with percentiles requests one budget for all of them together, with its noise
and its weight, which no other output of the call uses. -/
theorem C75_percentiles_share_one_request (fmt : ℚ → String) (rs rs' : List Request) (p : Params) (pub : Option (List K)) (key : R → K)
    (value : R → ℚ) (hs : SupportedAny p pub) (hp : ∃ x, Metric.percentile x ∈ p.metrics) {b : Built}
    (hb : build fmt rs (.aggregate p pub key value) = (.ok b, rs')) :
    ∃ i, (∀ j qs, Part.quantile j qs ∈ b.parts ↔ j = i ∧ qs = p.metrics.filterMap Metric.percentile?) ∧
      rs.length ≤ i ∧ rs'[i]? = some ⟨p.noiseKind.mechanism, p.budgetWeight⟩ ∧ b.specs.count i = 1 := by
  obtain ⟨⟨rs1, hcc⟩, -⟩ := build_aggregate hb
  obtain ⟨new, rfl, hsp, hrq, -⟩ := build_requests (c := .aggregate p pub key value) hs hb
  have hne : p.metrics.filterMap Metric.percentile? ≠ [] := by
    obtain ⟨x, hx⟩ := hp
    intro h
    rw [List.filterMap_eq_nil_iff] at h
    simpa [Metric.percentile?] using h _ hx
  have hq := qParts_built hcc
  rw [if_neg hne] at hq
  have hmem : ∀ j qs, Part.quantile j qs ∈ b.parts ↔ j = rs1.length - 1 ∧ qs = p.metrics.filterMap Metric.percentile? := by
    intro j qs
    rw [← mem_qParts, hq, List.mem_singleton, Prod.mk.injEq]
  have hin : Part.quantile (rs1.length - 1) (p.metrics.filterMap Metric.percentile?) ∈ b.parts := (hmem _ _).mpr ⟨rfl, rfl⟩
  have hbs : rs1.length - 1 ∈ b.specs := by
    unfold Built.specs
    exact List.mem_append_left _ (List.mem_flatMap.mpr ⟨_, hin, by simp [Part.specs]⟩)
  refine ⟨rs1.length - 1, hmem, ?_, ?_, ?_⟩
  · rw [hsp, List.mem_range'_1] at hbs
    exact hbs.1
  · have := C21_each_combiner_gets_its_mechanism fmt p rs b.parts (by rw [hcc]) _ hin (rs1.length - 1) (by simp [Part.specs])
    rw [hcc] at this
    simp only [build, hcc] at hb
    split at hb
    · simp only [Prod.mk.injEq, Except.ok.injEq, requestBudget] at hb
      rw [← hb.2, List.getElem?_append_left (List.getElem?_eq_some_iff.mp this).1]
      exact this
    · simp only [Prod.mk.injEq, Except.ok.injEq] at hb
      rw [← hb.2]
      exact this
  · rw [hsp] at hbs ⊢
    exact List.count_eq_one_of_mem (List.nodup_range' ..) hbs

/-! ### What is released -/

theorem allValues_flatten (l : List (List ℚ)) : allValues l = (l.flatten : Multiset ℚ) := by
  induction l with
  | nil => rfl
  | cons x l ih =>
    rw [show allValues (x :: l) = (x : Multiset ℚ) + allValues l by simp [allValues], ih]
    rfl

theorem quantileOf_inv {tree : TreeLibrary} {s : Specs} {p : Params} {i : ℕ} {ps : List ℚ} {m : Multiset ℚ} {μ}
    (h : quantileOf tree s p i ps m = .ok μ) :
    ∃ lo hi e d l0 linf, p.minValue = some lo ∧ p.maxValue = some hi ∧ BudgetsAre s [i] [(e, d)] ∧ p.maxPartitions = some l0 ∧
      p.maxPerPartition = some linf ∧ μ = tree ⟨lo, hi, e, d, l0, linf, ps.map fun x => x / 100, p.noiseKind⟩ m := by
  unfold quantileOf at h
  split at h
  · rename_i lo hi h1 h2
    split at h
    · rename_i e d l0 linf h3 h4 h5 h6
      have h5' : p.maxPartitions = some l0 := by
        cases hx : p.maxPartitions <;> rw [hx] at h5 <;> simp [natArg] at h5
        rw [h5]
      have h6' : p.maxPerPartition = some linf := by
        cases hx : p.maxPerPartition <;> rw [hx] at h6 <;> simp [natArg] at h6
        rw [h6]
      exact ⟨lo, hi, e, d, l0, linf, h1, h2, List.Forall₂.cons ⟨h3, h4⟩ List.Forall₂.nil, h5', h6', (Except.ok.inj h).symm⟩
    · cases h
    · cases h
    · cases h
    · cases h
  · cases h

theorem evalTrees_inv {tree : TreeLibrary} {fmt : ℚ → String} {sigma : ℝ → ℝ → ℝ → ℝ} {s : Specs} {p : Params} {m : Multiset ℚ} :
    ∀ {parts : List Part} {a : Combiner.AccTuple (combinersOf sigma p parts)} {l : List Quantiles},
      contents sigma p parts a = ((qParts parts).map fun _ => m) → evalTrees tree fmt sigma s p parts a = .ok l →
      List.Forall₂ (fun (q : ℕ × List ℚ) (r : Quantiles) => r.spec = q.1 ∧ r.names = q.2.map (fun x => "percentile_" ++ fmt x) ∧
        quantileOf tree s p q.1 q.2 m = .ok r.law) (qParts parts) l := by
  intro parts
  induction parts with
  | nil =>
    intro a l _ h
    cases h
    exact List.Forall₂.nil
  | cons part parts ih =>
    intro a l hc h
    cases part <;> try exact ih (a := a.2) hc h
    case quantile i ps =>
      have hc' : (show Multiset ℚ from a.1) :: contents sigma p parts a.2 = m :: (qParts parts).map fun _ => m := hc
      obtain ⟨a1, a2⟩ := List.cons.inj hc'
      have h0 : quantileOf tree s p i ps (show Multiset ℚ from a.1) = quantileOf tree s p i ps m := by rw [a1]
      simp only [evalTrees] at h
      rw [h0] at h
      rcases h1 : quantileOf tree s p i ps m with e | μ
      · rw [h1] at h; cases hx : evalTrees tree fmt sigma s p parts a.2 <;> rw [hx] at h <;> cases h
      · rw [h1] at h
        rcases h2 : evalTrees tree fmt sigma s p parts a.2 with e | y
        · rw [h2] at h; cases h
        · rw [h2] at h
          cases h
          exact List.Forall₂.cons ⟨rfl, rfl, h1⟩ (ih (a := a.2) a2 h2)

theorem qCandidate_inv {tree : TreeLibrary} {fmt : ℚ → String} {sigma : ℝ → ℝ → ℝ → ℝ} {s : Specs} {p : Params} {b : Built}
    {e : K × (Combiner.compound (combinersOf sigma p b.parts)).Acc} {c} (h : qCandidate tree fmt sigma s p b e = .ok c) :
    candidate sigma s p b e = .ok c.base ∧ evalTrees tree fmt sigma s p b.parts e.2.2 = .ok c.quantiles := by
  unfold qCandidate at h
  split at h
  · rename_i h1 h2
    cases h
    exact ⟨h1, h2⟩
  · cases h
  · cases h

theorem partitionAccumulators_made (B : Backend) (hB : B.Lawful) (p : Params) (hp : p.BoundsValid) (cs : List (Combiner ℚ)) (comb)
    (pub : Option (List K)) (col : List (P × K × ℚ)) {out}
    (h : partitionAccumulators B cs comb (fun _ _ => true) p pub col = .ok out) :
    ∃ en : List ((P × K) × List ℚ), BoundedEntries p (Combiner.compound cs).sampling (dropPartitions p pub col) en ∧
      out = comb ((lists pub en).map fun e => (e.1, (Combiner.compound cs).create e.2)) := by
  obtain ⟨en, hen, ha⟩ := accumulators_made B hB p hp (Combiner.compound cs).sampling (Combiner.compound cs).create pub col
  refine ⟨en, hen, ?_⟩
  unfold partitionAccumulators at h
  rw [ha] at h
  by_cases hsel : selectsPrivately p pub = true
  · simp only [hsel, if_true] at h
    rcases hm : maxRowsPerId p with e | m
    · rw [hm] at h; cases h
    · rw [hm] at h
      have h : Except.ok (selectPrivate (fun _ _ => true) m (comb ((lists pub en).map fun e => (e.1, (Combiner.compound cs).create e.2))))
          = Except.ok out := h
      unfold selectPrivate at h
      rw [List.filter_eq_self.mpr fun _ _ => rfl] at h
      exact (Except.ok.inj h).symm
  · simp only [hsel] at h
    exact (Except.ok.inj h).symm

/-- **C75** (what is released).  When a call with percentiles is evaluated, the partitions that may be released are the public ones and
those with (bounded) data, each once.  For each of them PyDP's tree gets all bounded values of the partition, and computes the requested
percentiles (divided by 100, in the order of the metrics), with the bounds, the noise, the contribution bounds and the budget of the
call; they are named by their percentile.  Everything else is as without percentiles. -/
theorem C75_outputs (tree : TreeLibrary) (fmt : ℚ → String) (sigma : ℝ → ℝ → ℝ → ℝ) (s : Specs) (env : Env K) (henv : env.Lawful)
    (pid : R → P) (data : List R) (p : Params) (pub : Option (List K)) (key : R → K) (value : R → ℚ) (hs : SupportedAny p pub)
    (hq : ∃ x, Metric.percentile x ∈ p.metrics) {rs rs' : List Request} {b : Built}
    (hb : build fmt rs (.aggregate p pub key value) = (.ok b, rs')) {x}
    (hx : evalStepQ tree fmt sigma s env pid data (.call (.aggregate p pub key value)) (.call b) = .ok x) :
    ∃ (i : ℕ) (lo hi : ℚ) (l0 linf : ℕ) (en : List ((P × K) × List ℚ)),
      Part.quantile i (p.metrics.filterMap Metric.percentile?) ∈ b.parts ∧
      p.minValue = some lo ∧ p.maxValue = some hi ∧ p.maxPartitions = some l0 ∧ p.maxPerPartition = some linf ∧
      BoundedEntries p true (dropPartitions p pub (extract pid key value data)) en ∧
      (x.map fun c => c.base.key).Nodup ∧
      (∀ k, k ∈ (x.map fun c => c.base.key) ↔ k ∈ en.map (fun e => e.1.2) ∨ ∃ ps, pub = some ps ∧ k ∈ ps) ∧
      evalCall sigma s env pid b data (.aggregate p pub key value) = .ok (x.map QCandidate.base) ∧
      ∀ c ∈ x, ∃ e d, BudgetsAre s [i] [(e, d)] ∧
        c.quantiles = [⟨i, (p.metrics.filterMap Metric.percentile?).map (fun x => "percentile_" ++ fmt x),
          tree ⟨lo, hi, e, d, l0, linf, (p.metrics.filterMap Metric.percentile?).map (fun x => x / 100), p.noiseKind⟩
            ((listsOf pub en c.base.key).flatten : Multiset ℚ)⟩] := by
  obtain ⟨⟨rs1, hcc⟩, -⟩ := build_aggregate hb
  obtain ⟨x0, hx0⟩ := hq
  obtain ⟨lo, hi, l0, linf, b1, b2, b3, b4, b5, -⟩ := percentile_bounds hs hx0
  have hne : p.metrics.filterMap Metric.percentile? ≠ [] := by
    intro h
    rw [List.filterMap_eq_nil_iff] at h
    simpa [Metric.percentile?] using h _ hx0
  have hqp := qParts_built hcc
  rw [if_neg hne] at hqp
  have hin : Part.quantile (rs1.length - 1) (p.metrics.filterMap Metric.percentile?) ∈ b.parts := by
    rw [← mem_qParts, hqp]; simp
  have hsamp := sampling_quantile sigma p hin
  simp only [evalStepQ] at hx
  rcases hpa : partitionAccumulators env.backend (combinersOf sigma p b.parts) (env.combine (Combiner.compound _).merge)
      (fun _ _ => true) p pub (extract pid key value data) with e | out
  · rw [hpa] at hx; cases hx
  · rw [hpa] at hx
    dsimp only at hx
    obtain ⟨en, hen, hout⟩ := partitionAccumulators_made env.backend henv.backend p hs.bounds _ _ pub _ hpa
    rw [hsamp] at hen
    have hC := henv.combine (Combiner.compound (combinersOf sigma p b.parts)).merge
      ((lists pub en).map fun e => (e.1, (Combiner.compound (combinersOf sigma p b.parts)).create e.2))
    rw [← hout] at hC
    have hf := mapM_inv hx
    have hcand : List.Forall₂ (fun e (c : QCandidate K) => candidate sigma s p b e = .ok c.base) out x :=
      hf.imp fun e c h => (qCandidate_inv h).1
    have hkey : ∀ (e : K × (Combiner.compound (combinersOf sigma p b.parts)).Acc) (c : Candidate K), candidate sigma s p b e = .ok c →
        c.key = e.1 := by
      intro e c h
      unfold candidate at h
      split at h
      · cases h; rfl
      · cases h
      · cases h
    have hkeys : (x.map fun c => c.base.key) = out.map Prod.fst := forall₂_map hcand Prod.fst (fun c => c.base.key) fun e c h => hkey e _ h
    refine ⟨rs1.length - 1, lo, hi, l0, linf, en, hin, b1, b2, b4, b5, hen, by rw [hkeys]; exact hC.nodup, fun k => ?_, ?_, ?_⟩
    · rw [hkeys, hC.keys, List.map_map]
      exact lists_keys pub en k
    · simp only [evalCall]
      rw [hpa]
      dsimp only
      exact mapM_of_forall₂ (List.forall₂_map_right_iff.mpr hcand)
    · intro c hc
      obtain ⟨e, he, h⟩ := forall₂_mem hf hc
      obtain ⟨h1, h2⟩ := qCandidate_inv h
      have := evalTrees_inv (contents_combined sigma p b.parts hC e he) h2
      rw [hqp] at this
      generalize hql : c.quantiles = ql at this ⊢
      cases this with
      | cons h3 h4 =>
        cases h4
        obtain ⟨g1, g2, g3⟩ := h3
        obtain ⟨lo', hi', ep, de, l0', linf', c1, c2, c3, c4, c5, c6⟩ := quantileOf_inv g3
        rw [b1] at c1; rw [b2] at c2; rw [b4] at c4; rw [b5] at c5
        cases c1; cases c2; cases c4; cases c5
        refine ⟨ep, de, c3, ?_⟩
        rw [← hkey e _ h1, valuesOf_lists, allValues_flatten] at c6
        rename_i r
        obtain ⟨sp, nm, lw⟩ := r
        simp only at g1 g2 c6
        rw [g1, g2, c6]

/-! ### Pipelines without percentiles -/

theorem evalTrees_nil (tree : TreeLibrary) (fmt : ℚ → String) (sigma : ℝ → ℝ → ℝ → ℝ) (s : Specs) (p : Params) :
    ∀ (parts : List Part) (a : Combiner.AccTuple (combinersOf sigma p parts)), qParts parts = [] →
      evalTrees tree fmt sigma s p parts a = .ok [] := by
  intro parts
  induction parts with
  | nil => intro a _; rfl
  | cons part parts ih =>
    intro a h
    cases part <;> try exact ih a.2 h
    case quantile i ps => simp [qParts] at h

theorem mapM_wrap {α β γ ε : Type} (f : α → Except ε β) (f' : α → Except ε γ) (w : β → γ)
    (h : ∀ a, f' a = match f a with | .error e => .error e | .ok x => .ok (w x)) (l : List α) :
    l.mapM f' = match l.mapM f with | .error e => .error e | .ok x => .ok (x.map w) := by
  induction l with
  | nil => rfl
  | cons a l ih =>
    rw [List.mapM_cons, List.mapM_cons, h, ih]
    cases f a with
    | error e => rfl
    | ok x => cases l.mapM f <;> rfl

theorem no_percentiles {p : Params} {pub : Option (List K)} (hs : SupportedAggregate p pub) :
    p.metrics.filterMap Metric.percentile? = [] := by
  rw [List.filterMap_eq_nil_iff]
  intro m h
  rcases hs.metrics m h with rfl | rfl | rfl | rfl | rfl <;> rfl

theorem evalStepQ_plain (tree : TreeLibrary) (fmt : ℚ → String) (sigma : ℝ → ℝ → ℝ → ℝ) (s : Specs) (env : Env K) (pid : R → P)
    (data : List R) {c : Step R K} (hs : c.Supported) {rs rs' : List Request} {b ops} (hb : buildStep fmt rs c = .ok (b, rs', ops)) :
    evalStepQ tree fmt sigma s env pid data c b = match evalStep sigma s env pid data c b with
      | .error e => .error e
      | .ok x => .ok (x.map fun c => ⟨c, []⟩) := by
  cases c with
  | noise p f => cases b <;> rfl
  | call c =>
    cases c with
    | select p key => cases b <;> rfl
    | aggregate p pub key value =>
      simp only [buildStep] at hb
      rcases hx : build fmt rs (.aggregate p pub key value) with ⟨r, rs1⟩
      rw [hx] at hb
      rcases r with e | b'
      · simp at hb
      · simp only [Except.ok.injEq, Prod.mk.injEq] at hb
        obtain ⟨rfl, rfl, rfl⟩ := hb
        obtain ⟨⟨rs2, hcc⟩, -⟩ := build_aggregate hx
        have hq := qParts_built hcc
        rw [if_pos (no_percentiles hs)] at hq
        simp only [evalStepQ, evalStep, evalCall]
        cases partitionAccumulators env.backend (combinersOf sigma p b'.parts) (env.combine (Combiner.compound _).merge)
            (fun _ _ => true) p pub (extract pid key value data) with
        | error e => rfl
        | ok out =>
          dsimp only
          have := mapM_wrap (candidate sigma s p b') (qCandidate tree fmt sigma s p b') (fun c => (⟨c, []⟩ : QCandidate K))
            (fun e => by
              unfold qCandidate
              rw [evalTrees_nil tree fmt sigma s p b'.parts e.2.2 hq]
              cases candidate sigma s p b' e <;> rfl) out
          rw [this]
          cases out.mapM (candidate sigma s p b') <;> rfl

/-- **C75** (steps without percentiles).  Pipelines without percentiles are those of C74: the same evaluation, and no percentiles. -/
theorem C75_without_percentiles (tree : TreeLibrary) (fmt : ℚ → String) (cls : ℕ → CustomClass V A O) (sigma : ℝ → ℝ → ℝ → ℝ)
    (s : Specs) (env : ℕ → Env K) (pid : R → P) (data : List R) (cs : List (XStep R K V)) (hs : ∀ c ∈ cs, c.Supported cls) (st' : Store) :
    ∀ j rs st bs ops st1, planX cls fmt rs st cs = .ok (bs, ops, st1) →
      evalXQ tree fmt cls sigma s st' env pid data j cs bs = match evalX cls sigma s st' env pid data j cs bs with
        | .error e => .error e
        | .ok L => .ok (L.map fun x => (x.1.map fun c => ⟨c, []⟩, x.2)) := by
  induction cs with
  | nil =>
    intro j rs st bs ops st1 h
    simp only [planX, Except.ok.injEq, Prod.mk.injEq] at h
    obtain ⟨rfl, -⟩ := h
    rfl
  | cons c cs ih =>
    intro j rs st bs ops st1 h
    rw [planX] at h
    rcases hb : buildX cls fmt rs st c with e | ⟨b, rs1, ops1, st2⟩
    · rw [hb] at h; cases h
    · rw [hb] at h
      dsimp only at h
      rcases hp : planX cls fmt rs1 st2 cs with e | ⟨bs', ops', st3⟩
      · rw [hp] at h; cases h
      · rw [hp] at h
        simp only [Except.ok.injEq, Prod.mk.injEq] at h
        obtain ⟨rfl, rfl, rfl⟩ := h
        have one : evalXStepQ tree fmt cls sigma s st' (env j) pid data c b = match evalXStep cls sigma s st' (env j) pid data c b with
            | .error e => .error e
            | .ok x => .ok (x.1.map fun c => ⟨c, []⟩, x.2) := by
          have hc := hs c (by simp)
          cases c with
          | custom c =>
            cases b with
            | step b => rfl
            | custom l sel =>
              simp only [evalXStepQ, evalXStep]
              cases evalCustom cls s st' (env j) pid sel data c <;> rfl
          | step c =>
            simp only [buildX] at hb
            rcases hx : buildStep fmt rs c with e | ⟨b', rs1, ops1⟩
            · rw [hx] at hb; cases hb
            · rw [hx] at hb
              simp only [Except.ok.injEq, Prod.mk.injEq] at hb
              obtain ⟨rfl, rfl, rfl, rfl⟩ := hb
              simp only [evalXStepQ, evalXStep]
              rw [evalStepQ_plain tree fmt sigma s (env j) pid data hc hx]
              cases evalStep sigma s (env j) pid data c b' <;> rfl
        simp only [evalXQ, evalX]
        rw [one, ih (fun c hc => hs c (by simp [hc])) (j + 1) _ _ _ _ _ hp]
        cases evalXStep cls sigma s st' (env j) pid data c b with
        | error e => rfl
        | ok x => cases evalX cls sigma s st' env pid data (j + 1) cs bs' <;> rfl

/-! ### Nothing is left out -/

theorem evalTrees_specs {tree : TreeLibrary} {fmt : ℚ → String} {sigma : ℝ → ℝ → ℝ → ℝ} {s : Specs} {p : Params} :
    ∀ {parts : List Part} {a : Combiner.AccTuple (combinersOf sigma p parts)} {l : List Quantiles},
      evalTrees tree fmt sigma s p parts a = .ok l → l.map Quantiles.spec = qSpecs parts := by
  intro parts
  induction parts with
  | nil => intro a l h; cases h; rfl
  | cons part parts ih =>
    intro a l h
    cases part <;> try exact ih (a := a.2) h
    case quantile i ps =>
      simp only [evalTrees] at h
      split at h
      · rename_i h1 h2
        cases h
        show i :: _ = i :: qSpecs parts
        rw [ih h2]
      · cases h
      · cases h

theorem mem_qSpecs_specs {parts : List Part} {i : ℕ} (h : i ∈ qSpecs parts) : i ∈ parts.flatMap Part.specs := by
  obtain ⟨ps, h⟩ := mem_qSpecs.mp h
  exact List.mem_flatMap.mpr ⟨_, h, by simp [Part.specs]⟩

/-- What a step with percentiles has in common with one without, and where the percentiles are. -/
theorem evalStepQ_inv {tree : TreeLibrary} {fmt : ℚ → String} {sigma : ℝ → ℝ → ℝ → ℝ} {s : Specs} {env : Env K} (henv : env.Lawful)
    {pid : R → P} {data : List R} {c : Step R K} (hs : c.SupportedAny) {rs rs' : List Request} {b ops}
    (hb : buildStep fmt rs c = .ok (b, rs', ops)) {x} (hx : evalStepQ tree fmt sigma s env pid data c b = .ok x) :
    evalStep sigma s env pid data c b = .ok (x.map QCandidate.base) ∧
    ∀ c' ∈ x, ∀ q ∈ c'.quantiles, q.spec ∈ b.specs ∧ qOutput x c'.base.key (.quantiles q.spec) = q.law := by
  have plain : (evalStepQ tree fmt sigma s env pid data c b = match evalStep sigma s env pid data c b with
      | .error e => .error e
      | .ok x => .ok (x.map fun c => (⟨c, []⟩ : QCandidate K))) →
      evalStep sigma s env pid data c b = .ok (x.map QCandidate.base) ∧
      ∀ c' ∈ x, ∀ q ∈ c'.quantiles, q.spec ∈ b.specs ∧ qOutput x c'.base.key (.quantiles q.spec) = q.law := by
    intro h
    rw [h] at hx
    cases he : evalStep sigma s env pid data c b with
    | error e => rw [he] at hx; cases hx
    | ok y =>
      rw [he] at hx
      cases hx
      refine ⟨?_, ?_⟩
      · rw [List.map_map]
        exact congrArg Except.ok (List.map_id y).symm
      · intro c' hc'
        obtain ⟨z, -, rfl⟩ := List.mem_map.mp hc'
        simp
  cases c with
  | noise p f => exact plain (by cases b <;> rfl)
  | call c =>
    cases c with
    | select p key => exact plain (by cases b <;> rfl)
    | aggregate p pub key value =>
      have hs : SupportedAny p pub := hs
      simp only [buildStep] at hb
      rcases hy : build fmt rs (.aggregate p pub key value) with ⟨r, rs1⟩
      rw [hy] at hb
      rcases r with e | b'
      · simp at hb
      · simp only [Except.ok.injEq, Prod.mk.injEq] at hb
        obtain ⟨rfl, rfl, rfl⟩ := hb
        obtain ⟨new, -, hsp, -⟩ := build_requests (c := .aggregate p pub key value) hs hy
        have hnd : (b'.parts.flatMap Part.specs).Nodup := by
          have : b'.specs.Nodup := by rw [hsp]; exact List.nodup_range' ..
          exact (List.nodup_append.mp this).1
        simp only [evalStepQ] at hx
        simp only [evalStep, evalCall]
        rcases hpa : partitionAccumulators env.backend (combinersOf sigma p b'.parts) (env.combine (Combiner.compound _).merge)
            (fun _ _ => true) p pub (extract pid key value data) with e | out
        · rw [hpa] at hx; cases hx
        · rw [hpa] at hx
          dsimp only at hx ⊢
          obtain ⟨en, -, hout⟩ := partitionAccumulators_made env.backend henv.backend p hs.bounds _ _ pub _ hpa
          have hC := henv.combine (Combiner.compound (combinersOf sigma p b'.parts)).merge
            ((lists pub en).map fun e => (e.1, (Combiner.compound (combinersOf sigma p b'.parts)).create e.2))
          rw [← hout] at hC
          have hf := mapM_inv hx
          have hcand : List.Forall₂ (fun e (c : QCandidate K) => candidate sigma s p b' e = .ok c.base) out x :=
            hf.imp fun e c h => (qCandidate_inv h).1
          have hkeys : (x.map fun c => c.base.key) = out.map Prod.fst := forall₂_map hcand Prod.fst (fun c => c.base.key) fun e c h => by
            unfold candidate at h
            split at h
            · rename_i h1 h2
              have := Except.ok.inj h
              rw [← this]
            · cases h
            · cases h
          refine ⟨mapM_of_forall₂ (List.forall₂_map_right_iff.mpr hcand), fun c' hc' q hq => ?_⟩
          obtain ⟨e, he, h⟩ := forall₂_mem hf hc'
          have hspecs := evalTrees_specs (qCandidate_inv h).2
          have hfind : x.find? (fun c => c.base.key = c'.base.key) = some c' :=
            find_unique (fun c : QCandidate K => c.base.key) (by rw [hkeys]; exact hC.nodup) hc'
          refine ⟨?_, ?_⟩
          · show q.spec ∈ b'.specs
            refine List.mem_append_left _ (mem_qSpecs_specs ?_)
            rw [← hspecs]
            exact List.mem_map_of_mem hq
          · simp only [qOutput, hfind, QCandidate.law]
            rw [find_unique Quantiles.spec (by rw [hspecs]; exact qSpecs_nodup hnd) hq]

/-- **C75** (nothing is left out).  As in C74, and every percentile that may be released has its label in `S`. -/
theorem C75_everything_is_observed (fmt : ℚ → String) (lib : Library) (tree : TreeLibrary) (cls : ℕ → CustomClass V A O) (o0 : O)
    (pid : R → P) (data : List R) (u : P) (cs : List (XStep R K V)) (hs : ∀ c ∈ cs, c.SupportedAny cls)
    (hu : ∀ c ∈ cs, c.Promised pid data u) {st bs ops st'} (hp : planX cls fmt [] st cs = .ok (bs, ops, st')) :
    ∃ (U : Finset (ℕ × K)) (S : Finset QLabel) (T : Finset ℕ), ∀ (s : Specs) (env : ℕ → Env K), (∀ j, (env j).Lawful) →
      ∀ data' : List R, data' = data ∨ data' = (data.filter fun r => pid r ≠ u) →
      ∀ L, evalXQ tree fmt cls lib.sigma s st' env pid data' 0 cs bs = .ok L →
      ∀ j, (∀ c ∈ (L.map Prod.fst).getD j [], (j, c.base.key) ∈ U ∧
          qDecision lib ((L.map Prod.fst).getD j []) c.base.key = c.base.gate.law lib ∧
          (∀ n ∈ c.base.numbers, QLabel.number (n.spec, n.comp) ∈ S ∧
            qOutput ((L.map Prod.fst).getD j []) c.base.key (.number (n.spec, n.comp)) = n.law.map fun x _ => x) ∧
          ∀ q ∈ c.quantiles, QLabel.quantiles q.spec ∈ S ∧
            qOutput ((L.map Prod.fst).getD j []) c.base.key (.quantiles q.spec) = q.law) ∧
        ∀ c ∈ (L.map Prod.snd).getD j [], (j, c.key) ∈ U ∧ customDecision lib ((L.map Prod.snd).getD j []) c.key = c.gate.law lib ∧
          ∀ (i : ℕ) (μ : Measure O), c.outputs[i]? = some μ → i ∈ T ∧ customOutput o0 ((L.map Prod.snd).getD j []) c.key i = μ := by
  have inv : ∀ (s : Specs) (env : ℕ → Env K), (∀ j, (env j).Lawful) → ∀ (data' : List R) (cs : List (XStep R K V)),
      (∀ c ∈ cs, c.SupportedAny cls) → ∀ (j : ℕ) (rs : List Request) (st : Store) (bs ops st2), planX cls fmt rs st cs = .ok (bs, ops, st2) →
      ∀ L, evalXQ tree fmt cls lib.sigma s st' env pid data' j cs bs = .ok L →
      evalX cls lib.sigma s st' env pid data' j cs bs = .ok (L.map fun x => (x.1.map QCandidate.base, x.2)) ∧
      ∀ x ∈ L, ∀ c ∈ x.1, ∀ q ∈ c.quantiles, q.spec ∈ bs.flatMap BuiltX.specs ∧ qOutput x.1 c.base.key (.quantiles q.spec) = q.law := by
    intro s env henv data' cs
    induction cs with
    | nil =>
      intro _ j rs st bs ops st2 h L hL
      simp only [planX, Except.ok.injEq, Prod.mk.injEq] at h
      obtain ⟨rfl, -⟩ := h
      simp only [evalXQ, Except.ok.injEq] at hL
      subst hL
      exact ⟨rfl, by simp⟩
    | cons c cs ih =>
      intro hs j rs st bs ops st2 h L hL
      rw [planX] at h
      rcases hb : buildX cls fmt rs st c with e | ⟨b, rs1, ops1, st1⟩
      · rw [hb] at h; cases h
      · rw [hb] at h
        dsimp only at h
        rcases hp : planX cls fmt rs1 st1 cs with e | ⟨bs', ops', st3⟩
        · rw [hp] at h; cases h
        · rw [hp] at h
          simp only [Except.ok.injEq, Prod.mk.injEq] at h
          obtain ⟨rfl, rfl, rfl⟩ := h
          simp only [evalXQ] at hL
          rcases h1 : evalXStepQ tree fmt cls lib.sigma s st' (env j) pid data' c b with e | x
          · rw [h1] at hL; cases hL
          · rw [h1] at hL
            dsimp only at hL
            rcases h2 : evalXQ tree fmt cls lib.sigma s st' env pid data' (j + 1) cs bs' with e | L'
            · rw [h2] at hL; cases hL
            · rw [h2] at hL
              cases hL
              obtain ⟨i1, i2⟩ := ih (fun c hc => hs c (by simp [hc])) (j + 1) _ _ _ _ _ hp L' h2
              have one : evalXStep cls lib.sigma s st' (env j) pid data' c b = .ok (x.1.map QCandidate.base, x.2) ∧
                  ∀ c ∈ x.1, ∀ q ∈ c.quantiles, q.spec ∈ b.specs ∧ qOutput x.1 c.base.key (.quantiles q.spec) = q.law := by
                have hc := hs c (by simp)
                cases c with
                | custom c =>
                  cases b with
                  | step b =>
                    simp only [evalXStepQ, Except.ok.injEq] at h1
                    subst h1
                    exact ⟨rfl, by simp⟩
                  | custom l sel =>
                    simp only [evalXStepQ] at h1
                    simp only [evalXStep]
                    cases he : evalCustom cls s st' (env j) pid sel data' c with
                    | error e => rw [he] at h1; cases h1
                    | ok y =>
                      rw [he] at h1
                      cases h1
                      exact ⟨rfl, by simp⟩
                | step c =>
                  simp only [buildX] at hb
                  rcases hx : buildStep fmt rs c with e | ⟨b', rs1, ops1⟩
                  · rw [hx] at hb; cases hb
                  · rw [hx] at hb
                    simp only [Except.ok.injEq, Prod.mk.injEq] at hb
                    obtain ⟨rfl, rfl, rfl, rfl⟩ := hb
                    simp only [evalXStepQ] at h1
                    simp only [evalXStep]
                    cases he : evalStepQ tree fmt lib.sigma s (env j) pid data' c b' with
                    | error e => rw [he] at h1; cases h1
                    | ok y =>
                      rw [he] at h1
                      cases h1
                      obtain ⟨o1, o2⟩ := evalStepQ_inv (henv j) hc hx he
                      rw [o1]
                      exact ⟨rfl, o2⟩
              refine ⟨?_, ?_⟩
              · simp only [evalX, one.1, i1]
                rfl
              · intro y hy c' hc' q hq
                rcases List.mem_cons.mp hy with rfl | hy
                · obtain ⟨a1, a2⟩ := one.2 c' hc' q hq
                  exact ⟨by rw [List.flatMap_cons]; exact List.mem_append_left _ a1, a2⟩
                · obtain ⟨a1, a2⟩ := i2 y hy c' hc' q hq
                  exact ⟨by rw [List.flatMap_cons]; exact List.mem_append_right _ a1, a2⟩
  obtain ⟨U, S, T, h⟩ := x_cover fmt lib cls o0 pid data u cs hs hu hp
  refine ⟨U, S.image QLabel.number ∪ ((bs.flatMap BuiltX.specs).map QLabel.quantiles).toFinset, T, fun s env henv data' hd L hL j => ?_⟩
  obtain ⟨e1, e2⟩ := inv s env henv data' cs hs 0 _ _ _ _ _ hp L hL
  have h1 := h s env henv data' hd _ e1 j
  have hfst : (((L.map fun x => (x.1.map QCandidate.base, x.2)).map Prod.fst).getD j [])
      = ((L.map Prod.fst).getD j []).map QCandidate.base := by
    simp only [List.getD_eq_getElem?_getD, List.getElem?_map]
    cases L[j]? <;> rfl
  have hsnd : (((L.map fun x => (x.1.map QCandidate.base, x.2)).map Prod.snd).getD j []) = (L.map Prod.snd).getD j [] := by
    simp only [List.getD_eq_getElem?_getD, List.getElem?_map]
    cases L[j]? <;> rfl
  rw [hfst, hsnd] at h1
  refine ⟨fun c hc => ?_, h1.2⟩
  obtain ⟨g1, g2, g3⟩ := h1.1 c.base (List.mem_map_of_mem hc)
  refine ⟨g1, g2, fun n hn => ⟨?_, ?_⟩, fun q hq => ?_⟩
  · exact Finset.mem_union_left _ (Finset.mem_image_of_mem _ (g3 n hn).1)
  · simp only [qOutput]
    rw [(g3 n hn).2]
  · have hmem : ∃ x ∈ L, (L.map Prod.fst).getD j [] = x.1 := by
      simp only [List.getD_eq_getElem?_getD, List.getElem?_map] at hc ⊢
      cases hj : L[j]? with
      | none => rw [hj] at hc; simp at hc
      | some x => exact ⟨x, List.mem_of_getElem? hj, rfl⟩
    obtain ⟨x, hx, hxe⟩ := hmem
    rw [hxe] at hc ⊢
    obtain ⟨a1, a2⟩ := e2 x hx c hc q hq
    refine ⟨Finset.mem_union_right _ ?_, a2⟩
    rw [List.mem_toFinset]
    exact List.mem_map_of_mem a1

end PDP.EndToEnd
