import Verif.Engine.Spec
import Verif.Engine.Release

/-!
# Explain-computation reports (`pipeline_dp/report_generator.py`, `pipeline_dp/dp_engine.py:40-63`)

`W` is the state at the time when a report is generated (the budgets, for instance): stages may be functions of it.
-/

set_option linter.unusedVariables false

namespace PDP.Engine.Report

variable {W : Type}

/-! ### Model -/

/-- A stage description (`report_generator.py:66-75`): text, or a callable, evaluated when the report is generated, which may
raise. -/
inductive Entry (W : Type) where
  | text (s : String)
  | call (f : W → Except Err String)

/-- `ReportGenerator` (`report_generator.py:46-64`). -/
structure Gen (W : Type) where
  params : Option String
  method : String
  stages : List (Entry W)

/-- `ReportGenerator.__init__`: `params` is the readable text of the parameters, `none` for parameters `None`. -/
def Gen.new (params : Option String) (method : String) : Gen W := ⟨params, method, []⟩

/-- `add_stage` (`report_generator.py:66-75`). -/
def Gen.addStage (g : Gen W) (e : Entry W) : Gen W := { g with stages := g.stages ++ [e] }

/-- The loop of `report` (`report_generator.py:82-86`). -/
def stageLines (w : W) : ℕ → List (Entry W) → List String → Except Err (List String)
  | _, [], result => .ok result
  | i, .call f :: es, result =>
    match f w with
    | .error e => .error e
    | .ok s => stageLines w (i + 1) es (result ++ [s!" {i + 1}. {s}"])
  | i, .text s :: es, result => stageLines w (i + 1) es (result ++ [s!" {i + 1}. {s}"])

/-- `report` (`report_generator.py:77-89`). -/
def Gen.report (g : Gen W) (w : W) : Except Err String :=
  match g.params with
  | none => .ok ""
  | some "" => .ok ""
  | some p =>
    match stageLines w 0 g.stages [s!"DPEngine method: {g.method}", p, "Computation graph:"] with
    | .error e => .error e
    | .ok lines => .ok (String.intercalate "\n" lines)

/-- Exceptions of `ExplainComputationReport.text`. -/
inductive TextErr where
  | valueError | nameError
  deriving DecidableEq

/-- `ExplainComputationReport.text` (`report_generator.py:101-115`). If `report` raises, the handler `except e:` itself raises,
since there is no name `e`. -/
def text (g : Option (Gen W)) (w : W) : Except TextErr String :=
  match g with
  | none => .error .valueError
  | some g =>
    match g.report w with
    | .ok s => .ok s
    | .error _ => .error .nameError

/-- The report generators of an engine; `_add_report_generator`, `_add_report_stage` (`dp_engine.py:40-53`): stages are added to the
last one. -/
def addStageToLast (gs : List (Gen W)) (e : Entry W) : List (Gen W) :=
  match gs.getLast? with
  | none => gs
  | some g => gs.dropLast ++ [g.addStage e]

/-- A call of the engine (`aggregate`, `select_partitions`, `add_dp_noise`) as far as reports are concerned. -/
structure Call (W : Type) where
  params : Option String
  method : String
  stages : List (Entry W)

/-- One call: a new generator, and then its stages one by one. -/
def engineCall (gs : List (Gen W)) (c : Call W) : List (Gen W) :=
  c.stages.foldl addStageToLast (gs ++ [Gen.new c.params c.method])

/-- `explain_computations_report` (`dp_engine.py:59-63`). -/
def explain (gs : List (Gen W)) (w : W) : Except Err (List String) := gs.mapM fun g => g.report w

/-! #### The stages of `aggregate` -/

/-- Stages which `aggregate` reports. -/
inductive Stage where
  | dropNonPublic
  | perPartition (n : ℕ)
  | crossPartition (n : ℕ)
  | perUser (n : ℕ)
  | addEmpty
  | selection (s : Strategy) (preThreshold : Option ℕ)
  | metrics (p : Part)
  | dropUnderThreshold
  deriving DecidableEq

/-- `expects_per_partition_sampling` of the combiners (`combiners.py:76-85, 324-325, 377-378, 422-423`). -/
def partSampling (p : Params) : Part → Bool
  | .privacyIdCount _ => false
  | .thresholding _ => false
  | .sum _ => !p.sumBoundsSet
  | _ => true

/-- Stages added by the contribution bounders (`contribution_bounders.py:83-86, 100-103, 131-133, 223-226`);
`SamplingCrossPartitionContributionBounder` and `NoOpSampler` add none. -/
def boundStages : Bounder → List Stage
  | .perId m => [.perUser m]
  | .crossAndPer l0 linf => [.perPartition linf, .crossPartition l0]
  | .cross _ => []
  | .linf linf => [.perPartition linf]
  | .noOp => []

/-- Stages of `_aggregate` (`dp_engine.py:109-189`). -/
def aggregateStages {K : Type} (p : Params) (parts : List Part) (pub : Option (List K)) : Except Err (List Stage) := do
  let a := if pub.isSome && !p.publicFiltered then [Stage.dropNonPublic] else []
  let b ← if p.boundsEnforced then pure [] else do
    let b ← selectBounder p (parts.any (partSampling p))
    pure (boundStages b)
  let c := if (pub.getD []).isEmpty then [] else [Stage.addEmpty]
  let d := if selectsPrivately p pub then [Stage.selection p.strategy p.preThreshold] else []
  let e := parts.map Stage.metrics
  let f := if p.postThresholding then [Stage.dropUnderThreshold] else []
  return a ++ b ++ c ++ d ++ e ++ f

/-- `strategy.value` (`aggregate_params.py:86-90`). -/
def strategyName : Strategy → String
  | .truncatedGeometric => "Truncated Geometric"
  | .laplaceThresholding => "Laplace Thresholding"
  | .gaussianThresholding => "Gaussian Thresholding"

/-- Text of the stages. `budget w` gives the text of the budget of the partition selection and `describe p w` what the combiner `p`
says of itself; `VectorSumCombiner.explain_computation` returns `None` (`combiners.py:841-843`). -/
def Stage.entry (budget : W → Except Err String) (describe : Part → W → Except Err String) : Stage → Entry W
  | .dropNonPublic => .text "Public partition selection: dropped non public partitions"
  | .perPartition n => .text s!"Per-partition contribution bounding: for each privacy_id and each partition, randomly select \
      max(actual_contributions_per_partition, {n}) contributions."
  | .crossPartition n => .text s!"Cross-partition contribution bounding: for each privacy_id randomly select \
      max(actual_partition_contributed, {n}) partitions"
  | .perUser n => .text s!"User contribution bounding: randomly selected not more than {n} contributions"
  | .addEmpty => .text "Adding empty partitions for public partitions that are missing in data"
  | .selection s t => .call fun w => do
      let b ← budget w
      return s!"Private Partition selection: using {strategyName s} method with ({b}" ++
        (match t with | none => "" | some 0 => "" | some t => s!", pre_threshold={t}") ++ ")"
  | .metrics (.vectorSum _) => .text "None"
  | .metrics p => .call (describe p)
  | .dropUnderThreshold => .text "Drop partitions which have noised privacy_id_count less than threshold."

/-! ### Specification -/

/-- What a stage says when the state is `w`. -/
def Entry.eval (w : W) : Entry W → Except Err String
  | .text s => .ok s
  | .call f => f w

/-- The text of a report with the given stage texts: a header of three lines, then the stages numbered from 1. -/
def expected (method params : String) (texts : List String) : String :=
  String.intercalate "\n" ([s!"DPEngine method: {method}", params, "Computation graph:"] ++
    texts.mapIdx fun i t => s!" {i + 1}. {t}")

/-! ### Properties -/

theorem stageLines_ok (w : W) : ∀ (es : List (Entry W)) (i : ℕ) (acc : List String) (texts : List String),
    List.Forall₂ (fun e t => Entry.eval w e = .ok t) es texts →
    stageLines w i es acc = .ok (acc ++ texts.mapIdx fun j t => s!" {i + j + 1}. {t}")
  | [], i, acc, texts, h => by cases h; simp [stageLines]
  | .call f :: es, i, acc, _, .cons (b := t) (l₂ := ts) h hs => by
    have h' : f w = .ok t := h
    rw [stageLines, h']
    dsimp only
    rw [stageLines_ok w es (i + 1) _ ts hs, List.mapIdx_cons, List.append_assoc]
    congr 3
    rw [List.singleton_append, List.cons.injEq]
    refine ⟨rfl, ?_⟩
    congr 1; funext j t
    rw [Nat.add_right_comm i 1 j, Nat.add_assoc i j 1]
  | .text s :: es, i, acc, _, .cons (b := t) (l₂ := ts) h hs => by
    have h' : s = t := by simpa [Entry.eval] using h
    subst h'
    rw [stageLines]
    rw [stageLines_ok w es (i + 1) _ ts hs, List.mapIdx_cons, List.append_assoc]
    congr 3
    rw [List.singleton_append, List.cons.injEq]
    refine ⟨rfl, ?_⟩
    congr 1; funext j t
    rw [Nat.add_right_comm i 1 j, Nat.add_assoc i j 1]

theorem stageLines_error (w : W) : ∀ (es : List (Entry W)) (i : ℕ) (acc : List String) (e : Entry W), e ∈ es →
    (∀ s, Entry.eval w e ≠ .ok s) → ∃ err, stageLines w i es acc = .error err
  | .call f :: es, i, acc, e, hm, he => by
    rw [stageLines]
    rcases hf : f w with err | s
    · exact ⟨err, by simp⟩
    · dsimp only
      rcases List.mem_cons.mp hm with rfl | hm
      · exact absurd hf (he s)
      · exact stageLines_error w es _ _ e hm he
  | .text s :: es, i, acc, e, hm, he => by
    rw [stageLines]
    rcases List.mem_cons.mp hm with rfl | hm
    · exact absurd rfl (he s)
    · exact stageLines_error w es _ _ e hm he

theorem addStages (gs : List (Gen W)) : ∀ (es : List (Entry W)) (g : Gen W),
    es.foldl addStageToLast (gs ++ [g]) = gs ++ [{ g with stages := g.stages ++ es }]
  | [], g => by simp
  | e :: es, g => by
    have : addStageToLast (gs ++ [g]) e = gs ++ [g.addStage e] := by simp [addStageToLast]
    rw [List.foldl_cons, this, addStages gs es]
    simp [Gen.addStage]

theorem engineCall_eq (gs : List (Gen W)) (c : Call W) : engineCall gs c = gs ++ [⟨c.params, c.method, c.stages⟩] := by
  unfold engineCall
  rw [addStages]
  rfl

theorem engineCalls_eq : ∀ (cs : List (Call W)) (gs : List (Gen W)),
    cs.foldl engineCall gs = gs ++ cs.map fun c => ⟨c.params, c.method, c.stages⟩
  | [], gs => by simp
  | c :: cs, gs => by rw [List.foldl_cons, engineCall_eq, engineCalls_eq cs]; simp

/-- **C59.** After any sequence of engine calls with parameters, once every stage can be evaluated, there is one report per call, in
the order of the calls; the report of a call consists of its method, its parameters and exactly its own stages, in the order in
which they were added, numbered from 1. -/
theorem C59_reports (w : W) (cs : List (Call W)) (texts : List (List String)) (ps : List String)
    (hp : cs.map Call.params = ps.map some) (hne : ∀ p ∈ ps, p ≠ "")
    (ht : List.Forall₂ (fun c ts => List.Forall₂ (fun e t => Entry.eval w e = .ok t) c.stages ts) cs texts) :
    explain (cs.foldl engineCall []) w
      = .ok ((cs.zip (ps.zip texts)).map fun x => expected x.1.method x.2.1 x.2.2) := by
  rw [engineCalls_eq, List.nil_append]
  unfold explain
  induction ht generalizing ps with
  | nil => simp; rfl
  | @cons c ts cs texts hc hs ih =>
    cases ps with
    | nil => simp at hp
    | cons p ps =>
      simp only [List.map_cons, List.cons.injEq] at hp
      have hp0 : p ≠ "" := hne p (by simp)
      have hr : Gen.report ⟨c.params, c.method, c.stages⟩ w = .ok (expected c.method p ts) := by
        unfold Gen.report
        rw [hp.1]
        have := stageLines_ok w c.stages 0 [s!"DPEngine method: {c.method}", p, "Computation graph:"] ts hc
        split
        · rename_i h; cases h
        · rename_i h; cases h; exact absurd rfl hp0
        · rename_i h; cases h
          dsimp only
          rw [this]
          simp only [Nat.zero_add]
          rfl
      have ih' := ih ps hp.2 fun q hq => hne q (by simp [hq])
      simp only [List.map_cons, List.mapM_cons, hr, List.zip_cons_cons]
      rw [ih']
      rfl

/-- **C59.** The report of an aggregation says exactly what was done. Private partition selection is listed iff it is performed,
with the strategy and the pre-threshold of the parameters; dropping non-public partitions iff they are dropped; adding empty partitions iff some are added; the combiners are listed once each,
in order; thresholding of the results iff it is performed. -/
theorem C59_aggregate_stages {K : Type} (p : Params) (parts : List Part) (pub : Option (List K)) (st : List Stage)
    (h : aggregateStages p parts pub = .ok st) :
    (∀ s t, Stage.selection s t ∈ st ↔
      (pub = none ∧ p.postThresholding = false ∧ p.publicFiltered = false) ∧ s = p.strategy ∧ t = p.preThreshold) ∧
    (Stage.dropNonPublic ∈ st ↔ pub.isSome = true ∧ p.publicFiltered = false) ∧
    (Stage.addEmpty ∈ st ↔ ∃ k ps, pub = some (k :: ps)) ∧
    st.filterMap (fun s => match s with | .metrics q => some q | _ => none) = parts ∧
    (Stage.dropUnderThreshold ∈ st ↔ p.postThresholding = true) := by
  have hbs : ∀ b : Bounder, ∀ s ∈ boundStages b, (∃ n, s = .perPartition n) ∨ (∃ n, s = .crossPartition n) ∨ ∃ n, s = .perUser n := by
    intro b s hs
    cases b <;> simp [boundStages] at hs
    · exact .inr (.inr ⟨_, hs⟩)
    · rcases hs with hs | hs
      · exact .inl ⟨_, hs⟩
      · exact .inr (.inl ⟨_, hs⟩)
    · exact .inl ⟨_, hs⟩
  have key : ∃ bs : List Stage, (∀ s ∈ bs, (∃ n, s = .perPartition n) ∨ (∃ n, s = .crossPartition n) ∨ ∃ n, s = .perUser n) ∧
      st = (if pub.isSome && !p.publicFiltered then [Stage.dropNonPublic] else []) ++ bs ++
        (if (pub.getD []).isEmpty then [] else [Stage.addEmpty]) ++
        (if selectsPrivately p pub then [Stage.selection p.strategy p.preThreshold] else []) ++ parts.map Stage.metrics ++
        (if p.postThresholding then [Stage.dropUnderThreshold] else []) := by
    unfold aggregateStages at h
    by_cases he : p.boundsEnforced = true
    · rw [if_pos he] at h
      simp only [bind, Except.bind, pure, Except.pure, Except.ok.injEq] at h
      exact ⟨[], by simp, h.symm⟩
    · rw [if_neg he] at h
      rcases hb : selectBounder p (parts.any (partSampling p)) with e | b
      · rw [hb] at h; simp [bind, Except.bind] at h
      · rw [hb] at h
        simp only [bind, Except.bind, pure, Except.pure, Except.ok.injEq] at h
        exact ⟨boundStages b, hbs b, h.symm⟩
  obtain ⟨bs, hb, rfl⟩ := key
  have h1 : ∀ s t, Stage.selection s t ∉ bs := fun s t hm => by
    rcases hb _ hm with ⟨n, h⟩ | ⟨n, h⟩ | ⟨n, h⟩ <;> cases h
  have h2 : Stage.dropNonPublic ∉ bs := fun hm => by rcases hb _ hm with ⟨n, h⟩ | ⟨n, h⟩ | ⟨n, h⟩ <;> cases h
  have h3 : Stage.addEmpty ∉ bs := fun hm => by rcases hb _ hm with ⟨n, h⟩ | ⟨n, h⟩ | ⟨n, h⟩ <;> cases h
  have h4 : Stage.dropUnderThreshold ∉ bs := fun hm => by rcases hb _ hm with ⟨n, h⟩ | ⟨n, h⟩ | ⟨n, h⟩ <;> cases h
  have h5 : bs.filterMap (fun s => match s with | .metrics q => some q | _ => none) = ([] : List Part) := by
    rw [List.filterMap_eq_nil_iff]
    intro s hs
    rcases hb s hs with ⟨n, rfl⟩ | ⟨n, rfl⟩ | ⟨n, rfl⟩ <;> rfl
  have h6 : (parts.map Stage.metrics).filterMap (fun s => match s with | .metrics q => some q | _ => none) = parts := by
    rw [List.filterMap_map]
    exact List.filterMap_some
  refine ⟨?_, ?_, ?_, ?_, ?_⟩
  · intro s t
    simp [h1, selectsPrivately, and_assoc]
  · simp [h2]
  · simp [h3]
    cases pub with
    | none => simp
    | some l => cases l <;> simp
  · simp only [List.filterMap_append, h5, h6]
    split <;> split <;> split <;> split <;> simp
  · simp [h4]

/-- The combiner samples the contributions to a partition: all do, except PRIVACY_ID_COUNT and SUM with bounds on the sum
of a partition. -/
def SamplesRows (p : Params) : Part → Prop
  | .privacyIdCount _ => False
  | .thresholding _ => False
  | .sum _ => ¬ ((p.minSum.isSome = true) ∧ (p.maxSum.isSome = true))
  | _ => True

/-- **C59.** The bounds that are reported are the bounds of the parameters, each in its own sentence: the number of contributions per
user if `max_contributions` is set; otherwise, if some combiner samples rows, the number of contributions per partition and (if
partitions are to be limited) the number of partitions; nothing if the caller has enforced the bounds. -/
theorem C59_bounding_stages {K : Type} (p : Params) (hp : p.BoundsValid) (parts : List Part) (pub : Option (List K)) :
    ∃ st, aggregateStages p parts pub = .ok st ∧
      (∀ n, Stage.perUser n ∈ st ↔ p.boundsEnforced = false ∧ p.maxContributions = some n) ∧
      (∀ n, Stage.perPartition n ∈ st ↔ p.boundsEnforced = false ∧ p.maxPerPartition = some n ∧
        ∃ q ∈ parts, SamplesRows p q) ∧
      (∀ n, Stage.crossPartition n ∈ st ↔ p.boundsEnforced = false ∧ p.maxPartitions = some n ∧
        p.performCross = true ∧ ∃ q ∈ parts, SamplesRows p q) := by
  have hs : parts.any (partSampling p) = true ↔ ∃ q ∈ parts, SamplesRows p q := by
    rw [List.any_eq_true]
    refine exists_congr fun q => and_congr_right fun _ => ?_
    cases q with
    | sum _ =>
      simp only [partSampling, SamplesRows, Params.sumBoundsSet]
      cases p.minSum <;> cases p.maxSum <;> simp
    | _ => simp [partSampling, SamplesRows]
  have hmem : ∀ (x : Stage) (bs : List Stage), ((∃ n, x = .perUser n) ∨ (∃ n, x = .perPartition n) ∨ ∃ n, x = .crossPartition n) →
      (x ∈ (if pub.isSome && !p.publicFiltered then [Stage.dropNonPublic] else []) ++ bs ++
        (if (pub.getD []).isEmpty then [] else [Stage.addEmpty]) ++
        (if selectsPrivately p pub then [Stage.selection p.strategy p.preThreshold] else []) ++ parts.map Stage.metrics ++
        (if p.postThresholding then [Stage.dropUnderThreshold] else []) ↔ x ∈ bs) := by
    intro x bs hx
    simp only [List.mem_append]
    constructor
    · rintro (((((h | h) | h) | h) | h) | h)
      · split at h <;> rcases hx with ⟨n, rfl⟩ | ⟨n, rfl⟩ | ⟨n, rfl⟩ <;> simp at h
      · exact h
      · split at h <;> rcases hx with ⟨n, rfl⟩ | ⟨n, rfl⟩ | ⟨n, rfl⟩ <;> simp at h
      · split at h <;> rcases hx with ⟨n, rfl⟩ | ⟨n, rfl⟩ | ⟨n, rfl⟩ <;> simp at h
      · rcases hx with ⟨n, rfl⟩ | ⟨n, rfl⟩ | ⟨n, rfl⟩ <;> simp at h
      · split at h <;> rcases hx with ⟨n, rfl⟩ | ⟨n, rfl⟩ | ⟨n, rfl⟩ <;> simp at h
    · exact fun h => .inl (.inl (.inl (.inl (.inr h))))
  have key : ∃ bs : List Stage, aggregateStages p parts pub = .ok
        ((if pub.isSome && !p.publicFiltered then [Stage.dropNonPublic] else []) ++ bs ++
        (if (pub.getD []).isEmpty then [] else [Stage.addEmpty]) ++
        (if selectsPrivately p pub then [Stage.selection p.strategy p.preThreshold] else []) ++ parts.map Stage.metrics ++
        (if p.postThresholding then [Stage.dropUnderThreshold] else [])) ∧
      (∀ n, Stage.perUser n ∈ bs ↔ p.boundsEnforced = false ∧ p.maxContributions = some n) ∧
      (∀ n, Stage.perPartition n ∈ bs ↔ p.boundsEnforced = false ∧ p.maxPerPartition = some n ∧
        parts.any (partSampling p) = true) ∧
      (∀ n, Stage.crossPartition n ∈ bs ↔ p.boundsEnforced = false ∧ p.maxPartitions = some n ∧
        p.performCross = true ∧ parts.any (partSampling p) = true) := by
    cases he : p.boundsEnforced with
    | true => exact ⟨[], by simp [aggregateStages, he, bind, Except.bind, pure, Except.pure], by simp, by simp, by simp⟩
    | false =>
      rcases hp with ⟨m, hm, e1, e2, e3⟩ | ⟨l0, linf, h0, hi, e1, e2, e3⟩
      · have hne : m ≠ 0 := by omega
        refine ⟨[.perUser m], ?_, ?_, ?_, ?_⟩
        · simp [aggregateStages, he, selectBounder, e1, natArg, hne, boundStages, bind, Except.bind, pure, Except.pure]
        · intro n; simp [e1, eq_comm]
        · intro n; simp [e3]
        · intro n; simp [e2]
      · cases hc : p.performCross <;> cases ha : parts.any (partSampling p)
        · exact ⟨[], by simp [aggregateStages, he, selectBounder, e1, hc, ha, boundStages, bind, Except.bind, pure, Except.pure],
            by simp [e1], by simp, by simp⟩
        · exact ⟨[.perPartition linf], by
            simp [aggregateStages, he, selectBounder, e1, e3, hc, ha, natArg, boundStages, bind, Except.bind, pure, Except.pure],
            by simp [e1], by simp [e3, eq_comm], by simp⟩
        · exact ⟨[], by
            simp [aggregateStages, he, selectBounder, e1, e2, hc, ha, natArg, boundStages, bind, Except.bind, pure, Except.pure],
            by simp [e1], by simp, by simp⟩
        · exact ⟨[.perPartition linf, .crossPartition l0], by
            simp [aggregateStages, he, selectBounder, e1, e2, e3, hc, ha, natArg, boundStages, bind, Except.bind, pure, Except.pure],
            by simp [e1], by simp [e3, eq_comm], by simp [e2, eq_comm]⟩
  obtain ⟨bs, h1, h2, h3, h4⟩ := key
  refine ⟨_, h1, fun n => ?_, fun n => ?_, fun n => ?_⟩
  · rw [hmem _ _ (.inl ⟨n, rfl⟩), h2]
  · rw [hmem _ _ (.inr (.inl ⟨n, rfl⟩)), h3, hs]
  · rw [hmem _ _ (.inr (.inr ⟨n, rfl⟩)), h4, hs]

example := C59_bounding_stages (K := ℕ) { metrics := [.count], maxPartitions := some 2, maxPerPartition := some 10 }
  (Or.inr ⟨2, 10, by decide, by decide, rfl, rfl, rfl⟩) [.count 0] none

/-- **C59, gap.** Cross-partition contribution bounding is missing from the report whenever the combiners bound the contributions to a
partition themselves (PRIVACY_ID_COUNT, or SUM with per-partition bounds): it is performed, but no bounding stage is listed. -/
theorem C59_cross_bounding_unreported {K : Type} (p : Params) (parts : List Part) (pub : Option (List K)) (l0 : ℕ)
    (he : p.boundsEnforced = false) (hm : p.maxContributions = none) (hc : p.performCross = true) (h0 : p.maxPartitions = some l0)
    (hs : ∀ q ∈ parts, partSampling p q = false) :
    selectBounder p (parts.any (partSampling p)) = .ok (.cross l0) ∧
      ∃ st, aggregateStages p parts pub = .ok st ∧
        ∀ n, Stage.perPartition n ∉ st ∧ Stage.crossPartition n ∉ st ∧ Stage.perUser n ∉ st := by
  have ha : parts.any (partSampling p) = false := by
    rw [List.any_eq_false]; intro q hq; simp [hs q hq]
  have hb : selectBounder p (parts.any (partSampling p)) = .ok (.cross l0) := by
    rw [ha]
    simp [selectBounder, hm, hc, h0, natArg, bind, Except.bind, pure, Except.pure]
  refine ⟨hb, ?_⟩
  unfold aggregateStages
  rw [hb, he]
  refine ⟨_, rfl, fun n => ?_⟩
  simp [boundStages]

/-- **C59, gap.** While some stage of some call cannot be evaluated (its budget is not computed, say), no report at all is available,
and the report of that call raises `NameError`, not the documented `ValueError`. -/
theorem C59_before_budget (w : W) (cs : List (Call W)) (c : Call W) (hc : c ∈ cs) (p : String) (hp : c.params = some p)
    (hne : p ≠ "") (e : Entry W) (he : e ∈ c.stages) (hf : ∀ s, Entry.eval w e ≠ .ok s) :
    (∃ err, explain (cs.foldl engineCall []) w = .error err) ∧
      text (some ⟨c.params, c.method, c.stages⟩) w = .error .nameError := by
  have hr : ∃ err, Gen.report ⟨c.params, c.method, c.stages⟩ w = .error err := by
    unfold Gen.report
    rw [hp]
    obtain ⟨err, h⟩ := stageLines_error w c.stages 0 [s!"DPEngine method: {c.method}", p, "Computation graph:"] e he hf
    split
    · rename_i h; cases h
    · rename_i h; cases h; exact absurd rfl hne
    · rename_i h'; cases h'
      dsimp only
      rw [h]
      exact ⟨err, rfl⟩
  obtain ⟨err, hr⟩ := hr
  refine ⟨?_, by unfold text; dsimp only; rw [hr]⟩
  rw [engineCalls_eq, List.nil_append]
  unfold explain
  clear he hf hp
  induction cs with
  | nil => cases hc
  | cons d cs ih =>
    simp only [List.map_cons, List.mapM_cons]
    rcases hd : Gen.report ⟨d.params, d.method, d.stages⟩ w with e | s
    · exact ⟨e, rfl⟩
    · rcases List.mem_cons.mp hc with rfl | hc
      · rw [hr] at hd; cases hd
      · obtain ⟨e', h'⟩ := ih hc
        exact ⟨e', by rw [h']; rfl⟩

/-- **C59** (the line of private partition selection): it names the strategy, the budget at the time of reading, and the pre-threshold
if there is one (accepted parameters have only positive ones, C26). -/
theorem C59_selection_line (budget : W → Except Err String) (describe : Part → W → Except Err String) (w : W) {b : String}
    (hb : budget w = .ok b) (s : Strategy) :
    Entry.eval w (Stage.entry budget describe (.selection s none))
      = .ok s!"Private Partition selection: using {strategyName s} method with ({b})" ∧
    ∀ t : ℕ, 0 < t → Entry.eval w (Stage.entry budget describe (.selection s (some t)))
      = .ok s!"Private Partition selection: using {strategyName s} method with ({b}, pre_threshold={t})" := by
  refine ⟨?_, fun t ht => ?_⟩
  · simp only [Stage.entry, Entry.eval, hb, bind, Except.bind, pure, Except.pure]
    simp [String.append_assoc]
    rfl
  · obtain ⟨t, rfl⟩ : ∃ n, t = n + 1 := ⟨t - 1, by omega⟩
    simp only [Stage.entry, Entry.eval, hb, bind, Except.bind, pure, Except.pure]
    simp [String.append_assoc]
    rfl

/-- The line for a vector sum reads `None`. -/
theorem vector_sum_line (budget : W → Except Err String) (describe : Part → W → Except Err String) (w : W) (i : ℕ) :
    Entry.eval w (Stage.entry budget describe (.metrics (.vectorSum i))) = .ok "None" := rfl

/-! ### Non-vacuity -/

/-- Private COUNT: the stages of the example in `report_generator.py:33-37`. -/
example : aggregateStages (K := ℕ) { metrics := [.count], maxPartitions := some 2, maxPerPartition := some 10 } [.count 0] none
    = .ok [.perPartition 10, .crossPartition 2, .selection .truncatedGeometric none, .metrics (.count 0)] := by decide +kernel

/-- PRIVACY_ID_COUNT: no bounding stage. -/
example : aggregateStages { metrics := [.privacyIdCount], maxPartitions := some 2, maxPerPartition := some 1 } [.privacyIdCount 0]
      (some ["a"])
    = .ok [.dropNonPublic, .addEmpty, .metrics (.privacyIdCount 0)] := by decide +kernel

example : expected "aggregate" "AggregateParams:" ["first", "second"]
    = "DPEngine method: aggregate\nAggregateParams:\nComputation graph:\n 1. first\n 2. second" := by decide +kernel

end PDP.Engine.Report
