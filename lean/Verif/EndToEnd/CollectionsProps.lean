import Verif.EndToEnd.Collections
import Verif.EndToEnd.CallsExample

/-!
# Programs on private collections are differentially private (C70)
-/

set_option linter.unusedSectionVars false

namespace PDP.EndToEnd

open PDP PDP.Engine MeasureTheory
open PDP.Engine.AddNoise (specOf)
open PDP.Budget (State Op MechType)
open PDP.Approx (Indist)
open PDP.Private (Coll Kind MetricParams SelectParams makePrivate beamStep sparkStep beamParams sparkParams beamSelect
  sparkSelect derive C49_lineage)

variable {P V K A : Type} [DecidableEq P] [DecidableEq K] [DecidableEq A]

/-! ### Collections -/

theorem Release.rows_eq (api : Api) (r : Release P V K A) :
    (r.coll api).rows = r.raw.flatMap (fun x => (derive r.ops x).map fun y => (r.privacyId x, y)) := by
  cases api
  · exact (C49_lineage r.ops r.privacyId r.accountant r.raw).1
  · exact (C49_lineage r.ops r.privacyId r.accountant r.raw).2.1

theorem Release.accountant_eq (api : Api) (r : Release P V K A) : (r.coll api).accountant = r.accountant := by
  cases api
  · exact (C49_lineage r.ops r.privacyId r.accountant r.raw).2.2.1
  · exact (C49_lineage r.ops r.privacyId r.accountant r.raw).2.2.2

/-- The privacy id of a row, as the engine gets it. -/
def rowId (x : P × V) : Option P := some x.1

theorem Release.without_rows (api : Api) (u : P) (r : Release P V K A) :
    ((r.without u).coll api).rows = removeId rowId (some u) (r.coll api).rows := by
  rw [Release.rows_eq, Release.rows_eq]
  unfold Release.without removeId rowId
  dsimp only
  generalize r.raw = raw
  induction raw with
  | nil => rfl
  | cons x raw ih =>
    rw [List.flatMap_cons, List.filter_append, ← ih]
    by_cases h : r.privacyId x = u
    · rw [List.filter_cons_of_neg (by simp [h])]
      have : ((derive r.ops x).map fun y => (r.privacyId x, y)).filter (fun y => decide (some y.1 ≠ some u)) = [] := by
        rw [List.filter_eq_nil_iff]
        intro y hy
        obtain ⟨z, -, rfl⟩ := List.mem_map.mp hy
        simp [h]
      rw [this, List.nil_append]
    · rw [List.filter_cons_of_pos (by simp [h]), List.flatMap_cons]
      congr 1
      symm
      rw [List.filter_eq_self]
      intro y hy
      obtain ⟨z, -, rfl⟩ := List.mem_map.mp hy
      simp [h]

theorem spending_eq (api : Api) (a : A) (prog : List (Release P V K A)) :
    spending api a prog = prog.filter fun r => r.accountant = a := by
  unfold spending
  refine List.filter_congr fun r _ => ?_
  rw [Release.accountant_eq]

theorem spending_without (api : Api) (a : A) (u : P) (prog : List (Release P V K A)) :
    spending api a (prog.map (Release.without u)) = (spending api a prog).map (Release.without u) := by
  rw [spending_eq, spending_eq, List.filter_map]
  rfl

/-! ### Calls -/

theorem evalCall_enforced (sigma : ℝ → ℝ → ℝ → ℝ) (s : Specs) (env : Env K) {R P Q : Type} [DecidableEq P] [DecidableEq Q]
    (pid : R → P) (pid' : R → Q) (b : Built) (data : List R) {p : Params} (h : p.boundsEnforced = true) (pub : Option (List K))
    (key : R → K) (value : R → ℚ) :
    evalCall sigma s env pid b data (.aggregate p pub key value) = evalCall sigma s env pid' b data (.aggregate p pub key value) := by
  have hd : (dropPartitions p pub (extract pid key value data)).map (fun r => r.2)
      = (dropPartitions p pub (extract pid' key value data)).map (fun r => r.2) := by
    unfold dropPartitions extract
    cases pub with
    | none => simp [List.map_map, Function.comp_def]
    | some ps =>
      dsimp only
      split
      · simp [List.map_map, Function.comp_def]
      · rw [List.filter_map, List.filter_map, List.map_map, List.map_map]
        rfl
  have : partitionAccumulators env.backend (combinersOf sigma p b.parts) (env.combine (Combiner.compound _).merge)
        (fun _ _ => true) p pub (extract pid key value data)
      = partitionAccumulators env.backend (combinersOf sigma p b.parts) (env.combine (Combiner.compound _).merge)
        (fun _ _ => true) p pub (extract pid' key value data) := by
    unfold partitionAccumulators accumulators dataAccumulators
    simp only [h, if_true, hd]
  simp only [evalCall, this]

theorem eval_release (api : Api) (sigma : ℝ → ℝ → ℝ → ℝ) (s : Specs) (env : Env K) (b : Built) (data : List (P × V))
    (r : Release P V K A) :
    evalCall sigma s env (r.pid api) b data (r.call api) = evalCall sigma s env rowId b data (r.call api) := by
  unfold Release.call
  have hpid : r.pid api = fun x => match r.ask with
    | .aggregate kind m _ _ _ => if (api.params kind m).boundsEnforced then none else some x.1
    | .select _ _ => some x.1 := rfl
  rw [hpid]
  cases r.ask with
  | aggregate kind m pub part value =>
    dsimp only
    by_cases h : (api.params kind m).boundsEnforced = true
    · exact evalCall_enforced _ _ _ _ _ _ _ h _ _ _
    · simp only [h]
      rfl
  | select sp part => rfl

theorem supported_call {api : Api} {r : Release P V K A} (h : r.ask.Valid api) : (r.call api).Supported := by
  unfold Release.call
  cases hr : r.ask with
  | select sp part =>
    rw [hr] at h
    obtain ⟨h1, h2⟩ := h
    cases api with
    | beam => exact ⟨h1, h2 rfl⟩
    | spark => exact ⟨h1, zero_lt_one⟩
  | aggregate kind m pub part value =>
    rw [hr] at h
    obtain ⟨h1, h2, h3, h4, h5, h6⟩ := h
    show SupportedAggregate _ _
    cases api with
    | beam =>
      cases kind <;>
      refine ⟨.inr ⟨_, _, h1, ?_, rfl, rfl, rfl⟩, by simp [Api.params, beamParams], by simp [Api.params, beamParams],
        by simp [Api.params, beamParams], ?_, ?_, ?_, by simp [Api.params, beamParams], by simp [Api.params, beamParams]⟩ <;>
      first
      | exact h2 (by simp)
      | exact le_rfl
      | (intro hh; simp [Api.params, beamParams] at hh; done)
      | exact fun _ _ _ => .inl ⟨_, _, rfl, rfl, (h3 rfl).1, (h3 rfl).2, rfl⟩
      | exact fun _ _ => ⟨_, _, rfl, rfl, h4 rfl⟩
      | exact fun _ => ⟨⟨_, _, rfl, rfl, h5 rfl⟩, rfl⟩
    | spark =>
      cases kind <;>
      refine ⟨.inr ⟨_, _, h1, ?_, rfl, rfl, rfl⟩, by simpa [Api.params, sparkParams] using (h6 rfl).1,
        by simp [Api.params, sparkParams], ?_, ?_, ?_, ?_, by simp [Api.params, sparkParams], by simp [Api.params, sparkParams]⟩ <;>
      first
      | exact h2 (by simp)
      | exact le_rfl
      | exact fun _ => (h6 rfl).2 rfl
      | (intro hh; simp [Api.params, sparkParams] at hh; done)
      | exact fun _ _ _ => .inl ⟨_, _, rfl, rfl, (h3 rfl).1, (h3 rfl).2, rfl⟩
      | exact fun _ _ => ⟨_, _, rfl, rfl, h4 rfl⟩
      | exact fun _ => ⟨⟨_, _, rfl, rfl, h5 rfl⟩, rfl⟩

theorem needsDelta_call (api : Api) (r : Release P V K A) : (r.call api).NeedsDelta ↔ r.ask.NeedsDelta := by
  unfold Release.call
  cases r.ask with
  | select sp part => exact Iff.rfl
  | aggregate kind m pub part value => cases api <;> cases kind <;> exact Iff.rfl

theorem elementsOf_rows (api : Api) (u : P) (r : Release P V K A) :
    ((r.coll api).rows.filter fun x => x.1 = u).map Prod.snd = r.elementsOf u := by
  rw [Release.rows_eq]
  unfold Release.elementsOf
  generalize r.raw = raw
  induction raw with
  | nil => rfl
  | cons x raw ih =>
    rw [List.flatMap_cons, List.filter_append, List.map_append, ih]
    by_cases h : r.privacyId x = u
    · rw [List.filter_cons_of_pos (by simp [h]), List.flatMap_cons]
      congr 1
      rw [List.filter_eq_self.mpr]
      · rw [List.map_map]; exact List.map_id _
      · intro y hy
        obtain ⟨z, -, rfl⟩ := List.mem_map.mp hy
        simp [h]
    · rw [List.filter_cons_of_neg (by simp [h])]
      have : ((derive r.ops x).map fun y => (r.privacyId x, y)).filter (fun y => decide (y.1 = u)) = [] := by
        rw [List.filter_eq_nil_iff]
        intro y hy
        obtain ⟨z, -, rfl⟩ := List.mem_map.mp hy
        simp [h]
      rw [this]; rfl

theorem promised_call {api : Api} {u : P} {r : Release P V K A} (h : r.Promised api u) (hv : r.ask.Valid api) :
    (r.call api).Promised rowId (r.coll api).rows (some u) := by
  have hel := elementsOf_rows api u r
  unfold Release.call
  unfold Release.Promised at h
  cases hr : r.ask with
  | select sp part => trivial
  | aggregate kind m pub part value =>
    rw [hr] at h hv
    dsimp only at h ⊢
    refine ⟨⟨fun he => ?_, fun hc => ?_⟩, fun hf => ?_⟩
    · cases api with
      | beam => cases kind <;> simp [Api.params, beamParams] at he
      | spark =>
        have hm : m.enforced = true := by cases kind <;> simpa [Api.params, sparkParams] using he
        obtain ⟨g1, g2⟩ := h rfl hm
        rw [← hel] at g1 g2
        have hk : kind ≠ .privacyIdCount := fun hk => by
          have := (hv.2.2.2.2.2 rfl).2 hk
          rw [this] at hm; cases hm
        refine ⟨fun n hn => ?_, fun l0 hl0 => ?_, fun linf hl k => ?_⟩
        · cases kind <;> simp [Api.params, sparkParams] at hn
        · have : l0 = m.maxPartitions := by cases kind <;> simpa [Api.params, sparkParams, eq_comm] using hl0
          rw [this]
          refine le_of_eq_of_le ?_ g1
          unfold partitionsOf extract rowId
          rw [List.filter_map, List.map_map, List.map_map]
          congr 2
          refine congrArg (List.map _) (List.filter_congr fun x _ => ?_)
          simp
        · have : linf = m.maxPerPartition := by
            cases kind <;> first | exact absurd rfl hk | simpa [Api.params, sparkParams, eq_comm] using hl
          rw [this]
          refine le_of_eq_of_le ?_ (g2 k)
          unfold cell extract rowId
          rw [List.length_map, List.filter_map, List.length_map, List.filter_map, List.length_map, List.filter_filter]
          refine congrArg List.length (List.filter_congr fun x _ => ?_)
          simp [and_comm]
    · cases api <;> cases kind <;> simp [Api.params, sparkParams, beamParams] at hc
    · cases api <;> cases kind <;> simp [Api.params, sparkParams, beamParams] at hf

/-! ### All releases -/

theorem releases_pairs (api : Api) {lib : Library} (hlib : lib.Contract) {s : Specs} {ε δ : ℕ → ℝ} {fmt : ℚ → String}
    (env : ℕ → Env K) (henv : ∀ j, (env j).Lawful) (u : P) {prog : List (Release P V K A)}
    (hs : ∀ r ∈ prog, r.ask.Valid api) (hu : ∀ r ∈ prog, r.Promised api u) :
    ∀ (j : ℕ) {rs : List Request} {bs ops}, planCalls fmt rs (prog.map (Release.call api)) = .ok (bs, ops) →
      (∀ x ∈ (prog.map (Release.call api)).zip bs, BuiltOk s ε δ x.1.kind x.2) →
      ∃ L L', evalReleases api lib.sigma s env j prog bs = .ok L ∧
        evalReleases api lib.sigma s env j (prog.map (Release.without u)) bs = .ok L' ∧
        L.length = prog.length ∧ L'.length = prog.length ∧
        ∃ p : ∀ j, Pair lib (L.getD j []) (L'.getD j []),
          ((List.range prog.length).map fun j => (p j).e).sum ≤ ((bs.flatMap Built.specs).map ε).sum ∧
          ((List.range prog.length).map fun j => (p j).d).sum ≤ ((bs.flatMap Built.specs).map δ).sum := by
  induction prog with
  | nil =>
    intro j rs bs ops h _
    simp only [planCalls, List.map_nil, Except.ok.injEq, Prod.mk.injEq] at h
    obtain ⟨rfl, rfl⟩ := h
    obtain ⟨q, -, -⟩ := empty_pair (K := K) lib
    exact ⟨[], [], rfl, rfl, rfl, rfl, fun _ => q, by simp, by simp⟩
  | cons r prog ih =>
    intro j rs bs ops h hbo
    have hc := supported_call (hs r (by simp))
    have hpr := promised_call (hu r (by simp)) (hs r (by simp))
    rw [List.map_cons] at h hbo
    rcases hx : build fmt rs (r.call api) with ⟨x, rs'⟩
    rw [planCalls, hx] at h
    rcases x with e | b
    · simp at h
    · dsimp only at h
      rcases hp : planCalls fmt rs' (prog.map (Release.call api)) with e | ⟨bs', ops'⟩
      · rw [hp] at h; simp at h
      · rw [hp] at h
        simp only [Except.ok.injEq, Prod.mk.injEq] at h
        obtain ⟨rfl, rfl⟩ := h
        have hb : BuiltOk s ε δ (r.call api).kind b := hbo (r.call api, b) (by simp)
        obtain ⟨x, x', h1, h2, q, hq1, hq2⟩ : ∃ x x', evalCall lib.sigma s (env j) rowId b (r.coll api).rows (r.call api) = .ok x ∧
            evalCall lib.sigma s (env j) rowId b (removeId rowId (some u) (r.coll api).rows) (r.call api) = .ok x' ∧
            ∃ q : Pair lib x x', q.e ≤ (b.specs.map ε).sum ∧ q.d ≤ (b.specs.map δ).sum := by
          generalize r.call api = c at hc hpr hx hb ⊢
          cases c with
          | aggregate p pub key value =>
            exact aggregate_call hlib hc hx hb (env j) (henv j) rowId _ _ hpr
          | select p key => exact select_call hlib hc.1 hx hb (env j) (henv j) rowId _ _
        rw [← eval_release] at h1
        rw [← Release.without_rows] at h2
        have h2 : evalCall lib.sigma s (env j) ((r.without u).pid api) b ((r.without u).coll api).rows ((r.without u).call api)
            = .ok x' := by rw [eval_release]; exact h2
        obtain ⟨L, L', g1, g2, g3, g4, p, g5, g6⟩ := ih (fun c hc => hs c (by simp [hc])) (fun c hc => hu c (by simp [hc]))
          (j + 1) hp (fun x hx => hbo x (by simp [hx]))
        let p' : ∀ j, Pair lib ((x :: L).getD j []) ((x' :: L').getD j []) := fun j =>
          match j with
          | 0 => q
          | j + 1 => p j
        refine ⟨x :: L, x' :: L', ?_, ?_, by simp [g3], by simp [g4], p', ?_, ?_⟩
        · simp only [evalReleases, h1, g1]
        · simp only [List.map_cons, evalReleases, h2, g2]
        · rw [List.length_cons, List.range_succ_eq_map, List.map_cons, List.map_map, List.sum_cons, List.flatMap_cons,
            List.map_append, List.sum_append]
          exact add_le_add hq1 g5
        · rw [List.length_cons, List.range_succ_eq_map, List.map_cons, List.map_map, List.sum_cons, List.flatMap_cons,
            List.map_append, List.sum_append]
          exact add_le_add hq2 g6

/-- **C70.**  Programs on private collections, in Beam or Spark: all that is released with one accountant with total budget
`(e, d)` is `(e, d)`-differentially private, if PyDP keeps its promises.  The program may make private collections of any raw
collections with any privacy ids, transform them by any functions, and make any releases of them; other accountants may be used
for other releases.  In Beam the data is arbitrary; in Spark it must keep the bounds that the program declares to be enforced.
The privacy id `u` is removed from all raw collections. -/
theorem C70_programs_are_differentially_private (api : Api) (fmt : ℚ → String) (lib : Library) (hlib : lib.Contract) {e d : ℚ}
    {num ws s0} (h0 : Budget.init e d num ws = .ok s0) (prog : List (Release P V K A)) (a : A)
    (hs : ∀ r ∈ prog, r.accountant = a → r.ask.Valid api)
    (hd : (∃ r ∈ prog, r.accountant = a ∧ r.ask.NeedsDelta) → 0 < d) {bs ops}
    (hp : planCalls fmt [] ((spending api a prog).map (Release.call api)) = .ok (bs, ops))
    (hc : (Budget.step (Budget.run s0 ops).1 .compute).2 = .unit)
    {Ω : Type} [MeasurableSpace Ω] (μ : Measure Ω) [IsProbabilityMeasure μ] (env : Ω → ℕ → Env K)
    (henv : ∀ ω j, (env ω j).Lawful) (u : P) (hu : ∀ r ∈ prog, r.accountant = a → r.Promised api u) :
    let s := specOf (Budget.step (Budget.run s0 ops).1 .compute).1
    planCalls fmt [] ((spending api a (prog.map (Release.without u))).map (Release.call api)) = .ok (bs, ops) ∧
    ∃ L L' : Ω → List (List (Candidate K)),
      (∀ ω, evalReleases api lib.sigma s (env ω) 0 (spending api a prog) bs = .ok (L ω) ∧
        evalReleases api lib.sigma s (env ω) 0 (spending api a (prog.map (Release.without u))) bs = .ok (L' ω)) ∧
      ∀ (U : Finset (ℕ × K)) (S : Finset (ℕ × ℕ)),
        (∀ ω, IsProbabilityMeasure (observedLaw lib U S (L ω)) ∧ IsProbabilityMeasure (observedLaw lib U S (L' ω))) ∧
        ∀ B, MeasurableSet B →
          ∫⁻ ω, observedLaw lib U S (L ω) B ∂μ
            ≤ ENNReal.ofReal (Real.exp e) * ∫⁻ ω, observedLaw lib U S (L' ω) B ∂μ + ENNReal.ofReal d ∧
          ∫⁻ ω, observedLaw lib U S (L' ω) B ∂μ
            ≤ ENNReal.ofReal (Real.exp e) * ∫⁻ ω, observedLaw lib U S (L ω) B ∂μ + ENNReal.ofReal d := by
  intro s
  have hmem : ∀ r ∈ spending api a prog, r ∈ prog ∧ r.accountant = a := by
    intro r hr
    rw [spending_eq] at hr
    simpa using hr
  have hwo : (spending api a (prog.map (Release.without u))).map (Release.call api) = (spending api a prog).map (Release.call api) := by
    rw [spending_without, List.map_map]
    rfl
  refine ⟨by rw [hwo]; exact hp, ?_⟩
  rw [spending_without]
  generalize spending api a prog = mine at hmem hp ⊢
  have hsup : ∀ c ∈ mine.map (Release.call api), c.Supported := by
    intro c hc
    obtain ⟨r, hr, rfl⟩ := List.mem_map.mp hc
    exact supported_call (hs r (hmem r hr).1 (hmem r hr).2)
  have hdel : (∃ c ∈ mine.map (Release.call api), c.NeedsDelta) → 0 < d := by
    rintro ⟨c, hc, hn⟩
    obtain ⟨r, hr, rfl⟩ := List.mem_map.mp hc
    exact hd ⟨r, (hmem r hr).1, (hmem r hr).2, (needsDelta_call api r).mp hn⟩
  obtain ⟨hplain, new, hreq, hspecs, hrq, hnd⟩ := planCalls_spec hsup hp
  obtain ⟨ε, δ, hok, hε, hδ⟩ := budgets_published hplain hreq h0 (fun r hr hne => hdel (hnd r hr hne)) hc
  have hbo : ∀ x ∈ (mine.map (Release.call api)).zip bs, BuiltOk s ε δ x.1.kind x.2 := by
    intro x hx
    have h := hrq x hx
    rw [List.nil_append] at h
    refine ⟨fun part hpart i hi => ?_, fun i hi => ?_, h.nodup⟩
    · obtain ⟨w, hw⟩ := h.parts part hpart i hi
      exact hok i _ hw
    · obtain ⟨w, hw⟩ := h.selection i hi
      exact hok i _ hw
  have key := fun ω => releases_pairs api hlib (env ω) (henv ω) u (fun r hr => hs r (hmem r hr).1 (hmem r hr).2)
    (fun r hr => hu r (hmem r hr).1 (hmem r hr).2) 0 hp hbo
  rw [List.length_nil] at hspecs
  rw [hspecs] at key
  choose L L' a1 a2 a3 a4 p a5 a6 using key
  refine ⟨L, L', fun ω => ⟨a1 ω, a2 ω⟩, fun U S => ⟨fun ω => ⟨?_, ?_⟩, fun B hB => ?_⟩⟩
  · exact observedLaw_prob (p ω) U S
  · exact observedLaw_prob (fun j => (p ω j).swap) U S
  · have fin : ∀ f g : Ω → ENNReal, (∀ ω, f ω ≤ ENNReal.ofReal (Real.exp e) * g ω + ENNReal.ofReal d) →
        ∫⁻ ω, f ω ∂μ ≤ ENNReal.ofReal (Real.exp e) * ∫⁻ ω, g ω ∂μ + ENNReal.ofReal d := by
      intro f g hfg
      refine (lintegral_mono hfg).trans ?_
      rw [lintegral_add_right _ measurable_const, lintegral_const_mul' _ _ ENNReal.ofReal_ne_top]
      simp
    have h1 : ∀ ω, ((List.range mine.length).map fun j => (p ω j).e).sum ≤ e := fun ω => (a5 ω).trans hε
    have h2 : ∀ ω, ((List.range mine.length).map fun j => (p ω j).d).sum ≤ d := fun ω => (a6 ω).trans hδ
    constructor
    · exact fin _ _ fun ω => ((observed_indist mine.length (p ω) (a3 ω) (a4 ω) U S).mono (h1 ω) (h2 ω)) B hB
    · exact fin _ _ fun ω => ((observed_indist mine.length (fun j => (p ω j).swap) (a4 ω) (a3 ω) U S).mono (h1 ω) (h2 ω)) B hB

/-- **C70** (programs run).  A program with valid asks is accepted by the engines, and `compute_budgets` succeeds, whatever fitting
announcements were made. -/
theorem C70_valid_programs_run (api : Api) (fmt : ℚ → String) {e d : ℚ} {num ws s0}
    (h0 : Budget.init e d num ws = .ok s0) (prog : List (Release P V K A)) (a : A)
    (hs : ∀ r ∈ prog, r.accountant = a → r.ask.Valid api)
    (hd : (∃ r ∈ prog, r.accountant = a ∧ r.ask.NeedsDelta) → 0 < d)
    (ha : AnnouncedCalls num ws ((prog.filter fun r => r.accountant = a).map (Release.call api))) :
    ∃ bs ops, planCalls fmt [] ((spending api a prog).map (Release.call api)) = .ok (bs, ops) ∧
      (∀ err, Budget.Out.raised err ∉ (Budget.run s0 ops).2) ∧ (Budget.step (Budget.run s0 ops).1 .compute).2 = .unit := by
  rw [spending_eq]
  refine C62_supported_pipeline_runs fmt _ (fun c hc => ?_) h0 (fun ⟨c, hc, hn⟩ => ?_) ha
  · obtain ⟨r, hr, rfl⟩ := List.mem_map.mp hc
    obtain ⟨h1, h2⟩ := List.mem_filter.mp hr
    exact supported_call (hs r h1 (of_decide_eq_true h2))
  · obtain ⟨r, hr, rfl⟩ := List.mem_map.mp hc
    obtain ⟨h1, h2⟩ := List.mem_filter.mp hr
    exact hd ⟨r, h1, of_decide_eq_true h2, (needsDelta_call api r).mp hn⟩

/-- **C70** (what is computed).  A release of an aggregation evaluates the engine's aggregation of the metric, with the noise, the
bounds and the public partitions of the user (but see C50), on rows made of the elements derived from the raw collection: each has
the privacy id of the raw element from which it is derived, its partition, and its value if the metric uses values. -/
theorem C70_aggregate (api : Api) (sigma : ℝ → ℝ → ℝ → ℝ) (s : Specs) (env : Env K) (b : Built) (pid : V → P) (a : A)
    (raw : List V) (ops : List (Private.Op V)) (kind : Kind) (m : MetricParams) (pub : Option (List K)) (part : V → K)
    (value : V → ℚ) :
    let r : Release P V K A := ⟨pid, a, raw, ops, .aggregate kind m pub part value⟩
    let asked := Private.requested kind m
    let p : Params := match api with
      | .beam => { asked with budgetWeight := 1, boundsEnforced := false }
      | .spark => { asked with budgetWeight := if kind = .privacyIdCount then 1 else m.weight, preThreshold := none }
    r.call api = .aggregate p pub (fun x => part x.2) (fun x => if kind.usesValues then value x.2 else 0) ∧
    evalCall sigma s env (r.pid api) b (r.coll api).rows (r.call api)
      = evalCall sigma s env (fun x => if p.boundsEnforced then none else some x.1) b
          (raw.flatMap fun x => (derive ops x).map fun y => (pid x, part y, if kind.usesValues then value y else 0))
          (.aggregate p pub (fun x => x.2.1) (fun x => x.2.2)) := by
  intro r asked p
  have hp : api.params kind m = p := by
    cases api
    · exact Private.C50_beam kind m
    · exact Private.C50_spark kind m
  have hcall : r.call api = .aggregate p pub (fun x => part x.2) (fun x => if kind.usesValues then value x.2 else 0) := by
    rw [← hp]; rfl
  refine ⟨hcall, ?_⟩
  rw [Release.rows_eq]
  have hpid : r.pid api = fun x => if p.boundsEnforced then none else some x.1 := by
    rw [← hp]; rfl
  rw [hcall, hpid]
  simp only [evalCall]
  congr 2
  simp [extract, List.map_flatMap, r, Function.comp_def]

/-- **C70** (what is computed).  A release of a partition selection evaluates the engine's partition selection on the rows of the
derived elements. -/
theorem C70_select (api : Api) (sigma : ℝ → ℝ → ℝ → ℝ) (s : Specs) (env : Env K) (b : Built) (pid : V → P) (a : A)
    (raw : List V) (ops : List (Private.Op V)) (sp : SelectParams) (part : V → K) :
    let r : Release P V K A := ⟨pid, a, raw, ops, .select sp part⟩
    let p : SelectParams := match api with
      | .beam => sp
      | .spark => { maxPartitions := sp.maxPartitions }
    r.call api = .select p (fun x => part x.2) ∧
    evalCall sigma s env (r.pid api) b (r.coll api).rows (r.call api)
      = evalCall sigma s env (fun x => some x.1) b (raw.flatMap fun x => (derive ops x).map fun y => (pid x, part y))
          (.select p (fun x => x.2)) := by
  intro r p
  have hcall : r.call api = .select p (fun x => part x.2) := by cases api <;> rfl
  refine ⟨hcall, ?_⟩
  rw [Release.rows_eq]
  have hpid : r.pid api = fun x => some x.1 := rfl
  rw [hcall, hpid]
  simp only [evalCall]
  congr! 4
  simp [List.map_flatMap, r, Function.comp_def]

/-- The same release on the elements of the raw collection that satisfy `keep`. -/
def Release.restrict (keep : Release P V K A → V → Bool) (r : Release P V K A) : Release P V K A :=
  { r with raw := r.raw.filter (keep r) }

theorem restrict_rows (api : Api) (keep : Release P V K A → V → Bool) (r : Release P V K A) :
    ∀ x ∈ ((r.restrict keep).coll api).rows, x ∈ (r.coll api).rows := by
  intro x hx
  rw [Release.rows_eq] at hx ⊢
  obtain ⟨y, hy, hxy⟩ := List.mem_flatMap.mp hx
  exact List.mem_flatMap.mpr ⟨y, (List.mem_filter.mp hy).1, hxy⟩

/-- **C70** (nothing is left out).  For every program there are finite sets `U` of (release, partition) and `S` of labels such that
with all its raw data and with any part of it, however the computation is executed, every partition that may be released is in `U`,
every number in it has its label in `S`, and `observedLaw` takes its decision and its numbers with the distributions with which
they are released. -/
theorem C70_everything_is_observed (api : Api) (fmt : ℚ → String) (lib : Library) (prog : List (Release P V K A)) (a : A)
    (hs : ∀ r ∈ prog, r.accountant = a → r.ask.Valid api) {bs ops}
    (hp : planCalls fmt [] ((spending api a prog).map (Release.call api)) = .ok (bs, ops)) :
    ∃ (U : Finset (ℕ × K)) (S : Finset (ℕ × ℕ)), ∀ (s : Specs) (env : ℕ → Env K), (∀ j, (env j).Lawful) →
      ∀ (keep : Release P V K A → V → Bool) L,
        evalReleases api lib.sigma s env 0 (spending api a (prog.map (Release.restrict keep))) bs = .ok L →
      ∀ j, ∀ c ∈ L.getD j [], (j, c.key) ∈ U ∧ decisionLaw lib (L.getD j []) c.key = c.gate.law lib ∧
        ∀ n ∈ c.numbers, (n.spec, n.comp) ∈ S ∧ numberLaw (L.getD j []) c.key (n.spec, n.comp) = n.law := by
  have hsp : ∀ keep : Release P V K A → V → Bool, spending api a (prog.map (Release.restrict keep))
      = (spending api a prog).map (Release.restrict keep) := by
    intro keep
    rw [spending_eq, spending_eq, List.filter_map]
    rfl
  simp only [hsp]
  have hmem : ∀ r ∈ spending api a prog, r.ask.Valid api := by
    intro r hr
    rw [spending_eq] at hr
    obtain ⟨h1, h2⟩ := List.mem_filter.mp hr
    exact hs r h1 (of_decide_eq_true h2)
  generalize spending api a prog = mine at hp hmem ⊢
  have key : ∀ (prog : List (Release P V K A)) (j0 : ℕ) (rs : List Request) (bs ops), (∀ r ∈ prog, r.ask.Valid api) →
      planCalls fmt rs (prog.map (Release.call api)) = .ok (bs, ops) →
      ∃ (U : Finset (ℕ × K)) (S : Finset (ℕ × ℕ)), ∀ (s : Specs) (env : ℕ → Env K), (∀ j, (env j).Lawful) →
      ∀ (keep : Release P V K A → V → Bool) L, evalReleases api lib.sigma s env j0 (prog.map (Release.restrict keep)) bs = .ok L →
      ∀ j, ∀ c ∈ L.getD j [], (j0 + j, c.key) ∈ U ∧ decisionLaw lib (L.getD j []) c.key = c.gate.law lib ∧
        ∀ n ∈ c.numbers, (n.spec, n.comp) ∈ S ∧ numberLaw (L.getD j []) c.key (n.spec, n.comp) = n.law := by
    intro prog
    induction prog with
    | nil =>
      intro j0 rs bs ops _ h
      refine ⟨∅, ∅, fun s env _ keep L hL j c hc => ?_⟩
      simp only [List.map_nil, evalReleases, Except.ok.injEq] at hL
      subst hL
      simp at hc
    | cons r prog ih =>
      intro j0 rs bs ops hs h
      rw [List.map_cons] at h
      rcases hx : build fmt rs (r.call api) with ⟨x, rs'⟩
      rw [planCalls, hx] at h
      rcases x with e | b
      · simp at h
      · dsimp only at h
        rcases hp : planCalls fmt rs' (prog.map (Release.call api)) with e | ⟨bs', ops'⟩
        · rw [hp] at h; simp at h
        · rw [hp] at h
          simp only [Except.ok.injEq, Prod.mk.injEq] at h
          obtain ⟨rfl, rfl⟩ := h
          obtain ⟨S, hS⟩ := call_cover (P := Option P) (sigma := lib.sigma) (supported_call (hs r (by simp))).any hx
          obtain ⟨U', S', ih⟩ := ih (j0 + 1) rs' bs' ops' (fun c hc => hs c (by simp [hc])) hp
          refine ⟨(((r.call api).partitions (r.coll api).rows).map fun k => (j0, k)).toFinset ∪ U', S ∪ S',
            fun s env henv keep L hL j x hxL => ?_⟩
          simp only [List.map_cons, evalReleases] at hL
          rcases h1 : evalCall lib.sigma s (env j0) ((r.restrict keep).pid api) b ((r.restrict keep).coll api).rows
            ((r.restrict keep).call api) with e | y
          · rw [h1] at hL; cases hL
          · rw [h1] at hL
            rcases h2 : evalReleases api lib.sigma s env (j0 + 1) (prog.map (Release.restrict keep)) bs' with e | L'
            · rw [h2] at hL; cases hL
            · rw [h2] at hL
              cases hL
              cases j with
              | zero =>
                have hxy : x ∈ y := hxL
                obtain ⟨hn, hall⟩ := hS s (env j0) (henv j0) _ _ y h1
                obtain ⟨g1, g2, g3⟩ := hall x hxy
                have hf : y.find? (fun c => c.key = x.key) = some x := find_unique Candidate.key hn hxy
                refine ⟨?_, ?_, fun n hn' => ⟨?_, ?_⟩⟩
                · rw [Finset.mem_union, List.mem_toFinset]
                  exact Or.inl (List.mem_map.mpr ⟨x.key, partitions_mono (restrict_rows api keep r) _ _ g1, rfl⟩)
                · show decisionLaw lib y x.key = _
                  simp only [decisionLaw, hf]
                · exact Finset.mem_union_left _ (g3 n hn')
                · show numberLaw y x.key _ = _
                  have hf' : x.numbers.find? (fun m => (m.spec, m.comp) = (n.spec, n.comp)) = some n :=
                    find_unique (fun n : Noisy K => (n.spec, n.comp)) g2 hn'
                  simp only [numberLaw, hf, hf']
              | succ j =>
                obtain ⟨g1, g2, g3⟩ := ih s env henv keep L' h2 j x hxL
                refine ⟨?_, g2, fun n hn' => ⟨Finset.mem_union_right _ (g3 n hn').1, (g3 n hn').2⟩⟩
                apply Finset.mem_union_right
                rw [show j0 + (j + 1) = j0 + 1 + j by omega]
                exact g1
  obtain ⟨U, S, h⟩ := key mine 0 [] bs ops hmem hp
  refine ⟨U, S, fun s env henv keep L hL j c hc => ?_⟩
  have := h s env henv keep L hL j c hc
  rwa [Nat.zero_add] at this

/-! ### Example -/

/-- A program on words of users: rows (user, words); the words are numbers.  Word counts with private partitions, the sum of the
lengths of the visits in public partitions, and a selection of partitions; one more release with another accountant. -/
def exampleProgramOf (visits : List (ℕ × List ℕ)) (places : List (ℕ × List ℕ)) : List (Release ℕ (ℕ × List ℕ) ℕ Bool) :=
  let split : Private.Op (ℕ × List ℕ) := .flatMap fun r => r.2.map fun w => (r.1, [w])
  let word : ℕ × List ℕ → ℕ := fun r => r.2.headD 0
  [⟨Prod.fst, true, visits, [split], .aggregate .count ⟨2, 3, 0, 0, 1, .gaussian, false, some 10⟩ none word fun _ => 0⟩,
   ⟨Prod.fst, false, visits, [], .select { maxPartitions := 1 } fun r => r.1⟩,
   ⟨Prod.fst, true, places, [.map fun r => (r.1, r.2.take 1)], .aggregate .sum ⟨2, 3, 0, 5, 1, .laplace, false, none⟩
     (some [0, 1]) word fun r => r.2.length⟩,
   ⟨Prod.fst, true, places, [split, split], .select { maxPartitions := 4 } word⟩]

/-- The hypotheses of C70 hold for this program, in both APIs, for every data and user. -/
example (api : Api) (fmt : ℚ → String) (visits places : List (ℕ × List ℕ)) (u : ℕ) :
    let prog := exampleProgramOf visits places
    ∃ s0 bs ops, Budget.init 1 (1 / 1000) (some 3) none = .ok s0 ∧
      planCalls fmt [] ((spending api true prog).map (Release.call api)) = .ok (bs, ops) ∧ (spending api true prog).length = 3 ∧
      let s := specOf (Budget.step (Budget.run s0 ops).1 .compute).1
      ∃ L L', evalReleases api exampleLibrary.sigma s (fun _ => exampleEnv firstRng) 0 (spending api true prog) bs = .ok L ∧
        evalReleases api exampleLibrary.sigma s (fun _ => exampleEnv firstRng) 0
          (spending api true (exampleProgramOf (visits.filter fun r => r.1 ≠ u) (places.filter fun r => r.1 ≠ u))) bs = .ok L' ∧
        ∀ (U : Finset (ℕ × ℕ)) (S : Finset (ℕ × ℕ)), ∀ B, MeasurableSet B →
          observedLaw exampleLibrary U S L B
            ≤ ENNReal.ofReal (Real.exp 1) * observedLaw exampleLibrary U S L' B + ENNReal.ofReal (1 / 1000) := by
  intro prog
  have hs : ∀ r ∈ prog, r.ask.Valid api := by
    intro r hr
    simp only [prog, exampleProgramOf, List.mem_cons, List.not_mem_nil, or_false] at hr
    rcases hr with rfl | rfl | rfl | rfl
    · exact ⟨by norm_num, fun _ => by norm_num, by simp, by simp, by simp, by simp⟩
    · exact ⟨by norm_num, by norm_num⟩
    · exact ⟨by norm_num, fun _ => by norm_num, by norm_num, by simp, by simp, by simp⟩
    · exact ⟨by norm_num, by norm_num⟩
  have hu : ∀ r ∈ prog, r.Promised api u := by
    intro r hr
    simp only [prog, exampleProgramOf, List.mem_cons, List.not_mem_nil, or_false] at hr
    rcases hr with rfl | rfl | rfl | rfl <;> simp [Release.Promised]
  obtain ⟨s0, h0⟩ : ∃ s0, Budget.init 1 (1 / 1000) (some 3) none = .ok s0 := by
    norm_num [Budget.init]
  obtain ⟨bs, ops, hp, -, hc⟩ := C70_valid_programs_run api fmt h0 prog true (fun r hr _ => hs r hr) (fun _ => by norm_num) (by
    cases api <;> refine ⟨fun n hn => ?_, by simp⟩ <;> cases hn <;>
      simp [prog, exampleProgramOf, Release.call, Call.weight, Api.params, Api.selectParams, beamParams, sparkParams, beamSelect,
        sparkSelect])
  refine ⟨s0, bs, ops, h0, hp, ?_, ?_⟩
  · rw [spending_eq]
    simp [prog, exampleProgramOf]
  · obtain ⟨-, L, L', h1, h2⟩ := C70_programs_are_differentially_private api fmt exampleLibrary exampleLibrary_contract h0 prog
      true (fun r hr _ => hs r hr) (fun _ => by norm_num) hp hc (Measure.dirac ()) (fun _ _ => exampleEnv firstRng)
      (fun _ _ => exampleEnv_lawful _) u (fun r hr _ => hu r hr)
    refine ⟨L (), L' (), (h1 ()).1, (h1 ()).2, fun U S B hB => ?_⟩
    have := ((h2 U S).2 B hB).1
    simpa using this

end PDP.EndToEnd
