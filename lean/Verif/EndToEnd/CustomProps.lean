import Verif.EndToEnd.CustomCall

/-! # Pipelines with custom combiners are differentially private (C74) -/

set_option linter.unusedSectionVars false

namespace PDP.EndToEnd

open PDP PDP.Engine MeasureTheory
open PDP.Engine.Mechanism (Additive createAdditive computed)
open PDP.Engine.AddNoise (specOf)
open PDP.Budget (State Op MechType Out)
open PDP.Approx (Indist)

variable {R P K V A O : Type} [DecidableEq P] [DecidableEq K] [MeasurableSpace O]

/-! ### The plan -/

theorem requestAll_eq (rs l : List Request) : requestAll rs l = (List.range' rs.length l.length, rs ++ l) := by
  induction l generalizing rs with
  | nil => simp [requestAll]
  | cons r l ih =>
    simp only [requestAll, requestBudget, ih, List.length_append, List.length_singleton, List.length_cons, List.append_assoc]
    rfl

theorem requested_range (rs l more : List Request) :
    List.Forall₂ (fun (r : Request) i => (rs ++ l ++ more)[i]? = some r) l (List.range' rs.length l.length) := by
  induction l generalizing rs with
  | nil => exact List.Forall₂.nil
  | cons r l ih =>
    rw [List.length_cons, List.range'_succ]
    refine List.Forall₂.cons (by simp) ?_
    have := ih (rs ++ [r])
    simpa using this

/-- What `setCombiners` does; for distinct objects every one has in the end its own budgets. -/
theorem setCombiners_spec (cls : ℕ → CustomClass V A O) (p : Params) (os : List ℕ) : ∀ (rs : List Request) (st : Store),
    (setCombiners cls p rs st os).2.1 = rs ++ os.flatMap (fun o => (cls o).requests p) ∧
    (setCombiners cls p rs st os).1.flatten = List.range' rs.length (os.flatMap fun o => (cls o).requests p).length ∧
    (∀ o, o ∉ os → (setCombiners cls p rs st os).2.2 o = st o) ∧
    (os.Nodup → ∀ more, ∃ z : List (ℕ × List ℕ), z.map Prod.fst = os ∧ z.map Prod.snd = (setCombiners cls p rs st os).1 ∧
      ∀ q ∈ z, (setCombiners cls p rs st os).2.2 q.1 = some (p, q.2) ∧
        List.Forall₂ (fun (r : Request) i => (rs ++ os.flatMap (fun o => (cls o).requests p) ++ more)[i]? = some r)
          ((cls q.1).requests p) q.2) := by
  induction os with
  | nil =>
    intro rs st
    refine ⟨by simp [setCombiners], by simp [setCombiners], fun o _ => rfl, fun _ more => ⟨[], rfl, rfl, by simp⟩⟩
  | cons o os ih =>
    intro rs st
    simp only [setCombiners, requestAll_eq]
    obtain ⟨h1, h2, h3, h4⟩ := ih (rs ++ (cls o).requests p)
      (Function.update st o (some (p, List.range' rs.length ((cls o).requests p).length)))
    refine ⟨?_, ?_, ?_, ?_⟩
    · rw [h1, List.flatMap_cons, List.append_assoc]
    · rw [List.flatten_cons, h2, List.flatMap_cons, List.length_append, List.length_append, ← List.range'_append_1]
    · intro o' ho'
      rw [h3 o' fun h => ho' (by simp [h]), Function.update_of_ne fun h => ho' (by simp [h])]
    · intro hn more
      rw [List.nodup_cons] at hn
      obtain ⟨z, z1, z2, z3⟩ := h4 hn.2 more
      refine ⟨(o, List.range' rs.length ((cls o).requests p).length) :: z, by rw [List.map_cons, z1], by rw [List.map_cons, z2], ?_⟩
      intro q hq
      rcases List.mem_cons.mp hq with rfl | hq
      · refine ⟨?_, ?_⟩
        · rw [h3 o hn.1, Function.update_self]
        · rw [List.flatMap_cons, ← List.append_assoc, List.append_assoc]
          exact requested_range rs _ _
      · rw [List.flatMap_cons, ← List.append_assoc]
        exact z3 q hq

/-- The budgets of a step were requested with the mechanisms it uses, and its combiners will find them. -/
def XRequested (cls : ℕ → CustomClass V A O) (rs : List Request) (st : Store) : XStep R K V → BuiltX → Prop
  | .step c, .step b => StepRequested rs c b
  | .custom c, .custom l sel =>
    (∃ z : List (ℕ × List ℕ), z.map Prod.fst = c.combiners ∧ z.map Prod.snd = l ∧
      ∀ q ∈ z, st q.1 = some (c.params, q.2) ∧
        List.Forall₂ (fun (r : Request) i => rs[i]? = some r) ((cls q.1).requests c.params) q.2) ∧
    sel.isSome = selectsPrivately c.params c.partitions ∧ ∀ i, sel = some i → ∃ w, rs[i]? = some ⟨.generic, w⟩
  | _, _ => False

theorem XRequested.later {cls : ℕ → CustomClass V A O} {rs : List Request} {st st' : Store} {c : XStep R K V} {b : BuiltX}
    (h : XRequested cls rs st c b) (more : List Request) (hst : ∀ o ∈ c.objects, st' o = st o) :
    XRequested cls (rs ++ more) st' c b := by
  cases c with
  | step c =>
    cases b with
    | step b => exact StepRequested.append h more
    | custom l sel => exact h
  | custom c =>
    cases b with
    | step b => exact h
    | custom l sel =>
      obtain ⟨⟨z, z1, z2, z3⟩, h2, h3⟩ := h
      refine ⟨⟨z, z1, z2, fun q hq => ⟨?_, ?_⟩⟩, h2, fun i hi => ?_⟩
      · rw [hst q.1 (by show q.1 ∈ c.combiners; rw [← z1]; exact List.mem_map_of_mem hq)]
        exact (z3 q hq).1
      · exact (z3 q hq).2.imp fun r i h => getElem?_prefix h _
      · obtain ⟨w, hw⟩ := h3 i hi
        exact ⟨w, getElem?_prefix hw _⟩

theorem XStep.SupportedAny.weight {cls : ℕ → CustomClass V A O} {c : XStep R K V} (h : c.SupportedAny cls) : 0 < c.weight := by
  cases c with
  | step c =>
    cases c with
    | call c => exact Call.SupportedAny.weight h
    | noise p f => exact h.2.2
  | custom c => exact CustomCall.Supported.weight h

theorem XStep.Supported.weight {cls : ℕ → CustomClass V A O} {c : XStep R K V} (h : c.Supported cls) : 0 < c.weight := by
  cases c with
  | step c => exact Step.Supported.weight h
  | custom c => exact CustomCall.Supported.weight h

theorem buildStep_spec {fmt : ℚ → String} {rs rs' : List Request} {c : Step R K} (hc : c.SupportedAny) {b ops}
    (h : buildStep fmt rs c = .ok (b, rs', ops)) :
    planSteps fmt rs [c] = .ok ([b], ops) ∧ ∃ new, rs' = rs ++ new ∧ b.specs = List.range' rs.length new.length ∧
      StepRequested (rs ++ new) c b ∧ (∀ r ∈ new, r.mechanism ≠ .laplace → c.NeedsDelta) ∧ (∀ op ∈ ops, PlainAny op) ∧
      ops.filterMap reqOf = new.map (fun r => (toMechType r.mechanism, (1 : ℤ))) := by
  cases c with
  | call c =>
    simp only [buildStep] at h
    rcases hx : build fmt rs c with ⟨r, rs1⟩
    rw [hx] at h
    rcases r with e | b'
    · simp at h
    · simp only [Except.ok.injEq, Prod.mk.injEq] at h
      obtain ⟨rfl, rfl, rfl⟩ := h
      obtain ⟨new, rfl, h2, h3, h4⟩ := build_requests (show c.SupportedAny from hc) hx
      have hw : 0 < c.weight := Call.SupportedAny.weight (show c.SupportedAny from hc)
      obtain ⟨k1, k2⟩ := callOps_plain hw (fun r hr => (h4 r hr).1)
      refine ⟨by simp only [planSteps, hx, List.append_nil], new, rfl, h2, h3, fun r hr => (h4 r hr).2, ?_, ?_⟩
      · rw [List.drop_left]; exact k1
      · rw [List.drop_left]; exact k2
  | noise p f =>
    simp only [buildStep] at h
    rcases hm : mkSens (p.l0.map fun x : ℚ => (x : ℝ)) (p.linf.map fun x : ℚ => (x : ℝ)) none none with e | sens
    · rw [hm] at h; cases h
    · rw [hm] at h
      simp only [Except.ok.injEq, Prod.mk.injEq] at h
      obtain ⟨rfl, rfl, rfl⟩ := h
      refine ⟨by simp only [planSteps, hm, List.append_nil], [⟨p.kind.mechanism, 1⟩], rfl, ?_, ?_, ?_, ?_, ?_⟩
      · simp [BuiltStep.specs, requestBudget]
      · exact ⟨⟨1, by simp [requestBudget]⟩, hm⟩
      · intro r hr hne
        simp only [List.mem_singleton] at hr
        subst hr
        show p.kind = .gaussian
        cases hk : p.kind with
        | laplace => rw [hk] at hne; exact absurd rfl hne
        | gaussian => rfl
      · intro op hop
        simp only [noiseOps, List.mem_cons, List.not_mem_nil, or_false] at hop
        rcases hop with rfl | rfl
        · exact ⟨one_pos, rfl, rfl⟩
        · trivial
      · simp [noiseOps, reqOf, mechType_eq]

/-- What `buildCustom` does. -/
theorem buildCustom_eq (cls : ℕ → CustomClass V A O) (rs : List Request) (st : Store) (c : CustomCall R K V) (hne : c.combiners ≠ []) :
    ∃ l st1 sel new, buildCustom cls rs st c = .ok (.custom l sel, rs ++ new, callOps c.params.budgetWeight new, st1) ∧
      new = c.combiners.flatMap (fun o => (cls o).requests c.params) ++
        (if selectsPrivately c.params c.partitions then [⟨.generic, 1⟩] else []) ∧
      l.flatten ++ sel.toList = List.range' rs.length new.length ∧
      sel.isSome = selectsPrivately c.params c.partitions ∧ (∀ i, sel = some i → ∃ w, (rs ++ new)[i]? = some ⟨.generic, w⟩) ∧
      (∀ o, o ∉ c.combiners → st1 o = st o) ∧
      (c.combiners.Nodup → XRequested cls (rs ++ new) st1 (.custom c) (.custom l sel)) := by
  obtain ⟨h1, h2, h3, h4⟩ := setCombiners_spec cls c.params c.combiners rs st
  rcases hx : setCombiners cls c.params rs st c.combiners with ⟨l, rs1, st1⟩
  rw [hx] at h1 h2 h3 h4
  dsimp only at h1 h2 h3 h4
  subst h1
  simp only [buildCustom, if_neg hne, hx]
  by_cases hp : selectsPrivately c.params c.partitions = true
  · have hsel : ∀ i, some (rs ++ c.combiners.flatMap fun o => (cls o).requests c.params).length = some i →
        ∃ w, (rs ++ (c.combiners.flatMap (fun o => (cls o).requests c.params) ++ [⟨.generic, 1⟩]))[i]? = some ⟨.generic, w⟩ := by
      intro i hi
      cases hi
      exact ⟨1, by rw [← List.append_assoc]; simp⟩
    refine ⟨l, st1, some (rs ++ c.combiners.flatMap fun o => (cls o).requests c.params).length,
      c.combiners.flatMap (fun o => (cls o).requests c.params) ++ [⟨.generic, 1⟩], ?_, ?_, ?_, by simp [hp], hsel, h3, fun hn => ⟨?_, by simp [hp], hsel⟩⟩
    · rw [if_pos hp]
      simp only [requestBudget, List.append_assoc, List.drop_left]
    · rw [if_pos hp]
    · rw [h2, List.length_append, List.length_append, List.length_singleton, List.range'_concat]
      simp
    · obtain ⟨z, z1, z2, z3⟩ := h4 hn [⟨.generic, 1⟩]
      rw [← List.append_assoc]
      exact ⟨z, z1, z2, z3⟩
  · refine ⟨l, st1, none, c.combiners.flatMap (fun o => (cls o).requests c.params), ?_, ?_, ?_, by simp [hp], by simp, h3,
      fun hn => ⟨?_, by simp [hp], by simp⟩⟩
    · rw [if_neg hp, List.drop_left]
    · rw [if_neg hp, List.append_nil]
    · rw [h2]; simp
    · obtain ⟨z, z1, z2, z3⟩ := h4 hn []
      rw [List.append_nil] at z3
      exact ⟨z, z1, z2, z3⟩

theorem custom_requests {cls : ℕ → CustomClass V A O} {c : CustomCall R K V} (hc : c.Supported cls) :
    ∀ r ∈ c.combiners.flatMap (fun o => (cls o).requests c.params) ++
      (if selectsPrivately c.params c.partitions then [⟨.generic, 1⟩] else []),
      0 < r.weight ∧ (r.mechanism ≠ .laplace → (XStep.custom c : XStep R K V).NeedsDelta cls) := by
  intro r hr
  rcases List.mem_append.mp hr with hr | hr
  · obtain ⟨o, ho, hr⟩ := List.mem_flatMap.mp hr
    exact ⟨hc.requests o ho r hr, fun hne => Or.inr ⟨o, ho, r, hr, hne⟩⟩
  · split at hr
    · rename_i h
      simp only [List.mem_singleton] at hr
      subst hr
      refine ⟨one_pos, fun _ => Or.inl ?_⟩
      simp only [selectsPrivately, Bool.and_eq_true, Option.isNone_iff_eq_none] at h
      exact h.1.1
    · simp at hr

theorem buildX_spec {cls : ℕ → CustomClass V A O} {fmt : ℚ → String} {rs rs' : List Request} {st st1 : Store} {c : XStep R K V}
    (hc : c.SupportedAny cls) (hn : c.objects.Nodup) {b ops} (h : buildX cls fmt rs st c = .ok (b, rs', ops, st1)) :
    ∃ new, rs' = rs ++ new ∧ b.specs = List.range' rs.length new.length ∧ XRequested cls (rs ++ new) st1 c b ∧
      (∀ r ∈ new, r.mechanism ≠ .laplace → c.NeedsDelta cls) ∧ (∀ op ∈ ops, PlainAny op) ∧
      ops.filterMap reqOf = new.map (fun r => (toMechType r.mechanism, (1 : ℤ))) ∧ ∀ o, o ∉ c.objects → st1 o = st o := by
  cases c with
  | step c =>
    simp only [buildX] at h
    rcases hx : buildStep fmt rs c with e | ⟨b', rs1, ops1⟩
    · rw [hx] at h; cases h
    · rw [hx] at h
      simp only [Except.ok.injEq, Prod.mk.injEq] at h
      obtain ⟨rfl, rfl, rfl, rfl⟩ := h
      obtain ⟨-, new, h1, h2, h3, h4, h5, h6⟩ := buildStep_spec (show c.SupportedAny from hc) hx
      exact ⟨new, h1, h2, h3, h4, h5, h6, fun _ _ => rfl⟩
  | custom c =>
    have hc : c.Supported cls := hc
    obtain ⟨l, st2, sel, new, h1, h2, h3, -, -, h4, h5⟩ := buildCustom_eq cls rs st c hc.nonempty
    simp only [buildX, h1, Except.ok.injEq, Prod.mk.injEq] at h
    obtain ⟨rfl, rfl, rfl, rfl⟩ := h
    have hreq := custom_requests hc
    rw [← h2] at hreq
    obtain ⟨k1, k2⟩ := callOps_plain hc.weight (fun r hr => (hreq r hr).1)
    exact ⟨new, rfl, h3, h5 hn, fun r hr => (hreq r hr).2, k1, k2, h4⟩

theorem planX_spec {cls : ℕ → CustomClass V A O} {fmt : ℚ → String} {cs : List (XStep R K V)} (hs : ∀ c ∈ cs, c.SupportedAny cls)
    (hn : (cs.flatMap XStep.objects).Nodup) : ∀ {rs : List Request} {st : Store} {bs ops st'},
      planX cls fmt rs st cs = .ok (bs, ops, st') →
      (∀ op ∈ ops, PlainAny op) ∧ (∀ o, o ∉ cs.flatMap XStep.objects → st' o = st o) ∧
      ∃ new, ops.filterMap reqOf = new.map (fun r => (toMechType r.mechanism, (1 : ℤ))) ∧
        bs.flatMap BuiltX.specs = List.range' rs.length new.length ∧
        List.Forall₂ (XRequested cls (rs ++ new) st') cs bs ∧
        ∀ r ∈ new, r.mechanism ≠ .laplace → ∃ c ∈ cs, c.NeedsDelta cls := by
  induction cs with
  | nil =>
    intro rs st bs ops st' h
    simp only [planX, Except.ok.injEq, Prod.mk.injEq] at h
    obtain ⟨rfl, rfl, rfl⟩ := h
    exact ⟨by simp, fun _ _ => rfl, [], by simp, by simp, by simp, by simp⟩
  | cons c cs ih =>
    intro rs st bs ops st' h
    rw [List.flatMap_cons, List.nodup_append] at hn
    obtain ⟨n1, n2, n3⟩ := hn
    rw [planX] at h
    rcases hb : buildX cls fmt rs st c with e | ⟨b, rs1, ops1, st1⟩
    · rw [hb] at h; cases h
    · rw [hb] at h
      dsimp only at h
      rcases hp : planX cls fmt rs1 st1 cs with e | ⟨bs', ops', st2⟩
      · rw [hp] at h; cases h
      · rw [hp] at h
        simp only [Except.ok.injEq, Prod.mk.injEq] at h
        obtain ⟨rfl, rfl, rfl⟩ := h
        obtain ⟨new, rfl, h2, h3, h4, h5, h6, h7⟩ := buildX_spec (hs c (by simp)) n1 hb
        obtain ⟨g1, g0, new', g2, g3, g4, g5⟩ := ih (fun c hc => hs c (by simp [hc])) n2 hp
        refine ⟨?_, ?_, new ++ new', ?_, ?_, ?_, ?_⟩
        · intro op hop
          rcases List.mem_append.mp hop with hop | hop
          · exact h5 op hop
          · exact g1 op hop
        · intro o ho
          rw [List.flatMap_cons, List.mem_append] at ho
          rw [g0 o fun h => ho (Or.inr h), h7 o fun h => ho (Or.inl h)]
        · rw [List.filterMap_append, h6, g2, List.map_append]
        · rw [List.flatMap_cons, h2, g3, List.length_append, List.length_append, ← List.range'_append_1]
        · rw [← List.append_assoc]
          refine List.Forall₂.cons (h3.later _ fun o ho => ?_) g4
          exact g0 o fun h => n3 o ho o h rfl
        · intro r hr hne
          rcases List.mem_append.mp hr with hr | hr
          · exact ⟨c, by simp, h4 r hr hne⟩
          · obtain ⟨c', hc', h⟩ := g5 r hr hne
            exact ⟨c', by simp [hc'], h⟩

/-! ### All steps -/

/-- The budgets of a step are the published ones. -/
def XOk (cls : ℕ → CustomClass V A O) (s : Specs) (ε δ : ℕ → ℝ) (st : Store) : XStep R K V → BuiltX → Prop
  | .step c, .step b => StepOk s ε δ c b
  | .custom c, .custom l sel =>
    (∃ z : List (ℕ × List ℕ), z.map Prod.fst = c.combiners ∧ z.map Prod.snd = l ∧
      ∀ q ∈ z, st q.1 = some (c.params, q.2) ∧
        List.Forall₂ (fun (r : Request) i => SpecOk s ε δ i r.mechanism) ((cls q.1).requests c.params) q.2) ∧
    sel.isSome = selectsPrivately c.params c.partitions ∧ ∀ i, sel = some i → SpecOk s ε δ i .generic
  | _, _ => False

theorem stepOk_of_requested {s : Specs} {ε δ : ℕ → ℝ} {new : List Request}
    (hok : ∀ i r, new[i]? = some r → SpecOk s ε δ i r.mechanism) {c : Step R K} {b : BuiltStep} (h : StepRequested new c b) :
    StepOk s ε δ c b := by
  cases c with
  | call c =>
    cases b with
    | noise i sens => exact h
    | call b =>
      have h : b.Requested c.kind new := h
      refine ⟨fun part hpart i hi => ?_, fun i hi => ?_, h.nodup⟩
      · obtain ⟨w, hw⟩ := h.parts part hpart i hi
        exact hok i _ hw
      · obtain ⟨w, hw⟩ := h.selection i hi
        exact hok i _ hw
  | noise p f =>
    cases b with
    | call b => exact h
    | noise i sens =>
      obtain ⟨⟨w, hw⟩, h2⟩ := h
      exact ⟨hok i _ hw, h2⟩

theorem xOk_of_requested {cls : ℕ → CustomClass V A O} {s : Specs} {ε δ : ℕ → ℝ} {st : Store} {new : List Request}
    (hok : ∀ i r, new[i]? = some r → SpecOk s ε δ i r.mechanism) {c : XStep R K V} {b : BuiltX} (h : XRequested cls new st c b) :
    XOk cls s ε δ st c b := by
  cases c with
  | step c =>
    cases b with
    | step b => exact stepOk_of_requested hok h
    | custom l sel => exact h
  | custom c =>
    cases b with
    | step b => exact h
    | custom l sel =>
      obtain ⟨⟨z, z1, z2, z3⟩, h2, h3⟩ := h
      refine ⟨⟨z, z1, z2, fun q hq => ⟨(z3 q hq).1, (z3 q hq).2.imp fun r i h => hok i r h⟩⟩, h2, fun i hi => ?_⟩
      obtain ⟨w, hw⟩ := h3 i hi
      exact hok i _ hw

/-- One step of C73. -/
theorem step_pair {lib : Library} (hlib : lib.Contract) {s : Specs} {ε δ : ℕ → ℝ} {fmt : ℚ → String} (env : Env K) (henv : env.Lawful)
    (pid : R → P) (data : List R) (u : P) {c : Step R K} (hs : c.Supported) (hu : c.Promised pid data u) {rs : List Request} {b ops}
    (hp : planSteps fmt rs [c] = .ok ([b], ops)) (hbo : StepOk s ε δ c b) :
    ∃ x x', evalStep lib.sigma s env pid data c b = .ok x ∧ evalStep lib.sigma s env pid (removeId pid u data) c b = .ok x' ∧
      ∃ q : Pair lib x x', q.e ≤ (b.specs.map ε).sum ∧ q.d ≤ (b.specs.map δ).sum := by
  obtain ⟨L, L', h1, h2, h3, h4, p, h5, h6⟩ := steps_pairs hlib (fun _ => env) (fun _ => henv) pid data u (cs := [c])
    (by simpa using hs) (by simpa using hu) 0 hp (List.Forall₂.cons hbo List.Forall₂.nil)
  have key : ∀ (d : List R) (L : List (List (Candidate K))), evalSteps lib.sigma s (fun _ => env) pid d 0 [c] [b] = .ok L →
      ∃ x, evalStep lib.sigma s env pid d c b = .ok x ∧ L = [x] := by
    intro d L hL
    cases c with
    | call c =>
      cases b with
      | noise i sens => exact hbo.elim
      | call b =>
        simp only [evalSteps] at hL
        simp only [evalStep]
        rcases hx : evalCall lib.sigma s env pid b d c with e | x
        · rw [hx] at hL; cases hL
        · rw [hx] at hL; cases hL; exact ⟨x, rfl, rfl⟩
    | noise p f =>
      cases b with
      | call b => exact hbo.elim
      | noise i sens =>
        simp only [evalSteps] at hL
        simp only [evalStep]
        rcases hx : noiseColumn lib.sigma s i sens (f d) with e | x
        · rw [hx] at hL; cases hL
        · rw [hx] at hL; cases hL; exact ⟨x, rfl, rfl⟩
  obtain ⟨x, hx, rfl⟩ := key _ _ h1
  obtain ⟨x', hx', rfl⟩ := key _ _ h2
  refine ⟨x, x', hx, hx', p 0, ?_, ?_⟩
  · exact (le_of_eq (show (p 0).e = (p 0).e + 0 from (add_zero _).symm)).trans (h5.trans (le_of_eq (by simp)))
  · exact (le_of_eq (show (p 0).d = (p 0).d + 0 from (add_zero _).symm)).trans (h6.trans (le_of_eq (by simp)))

theorem empty_custom (lib : Library) (o0 : O) :
    ∃ q : GPair (K := K) o0 (customDecision lib ([] : List (CustomCandidate K O)))
      (customDecision lib ([] : List (CustomCandidate K O))) (customOutput o0 []) (customOutput o0 []), q.e = 0 ∧ q.d = 0 := by
  have hd : ∀ k : K, customDecision lib ([] : List (CustomCandidate K O)) k = Measure.dirac (false, 0) := fun _ => rfl
  have ho : ∀ (k : K) i, customOutput o0 ([] : List (CustomCandidate K O)) k i = Measure.dirac o0 := fun _ _ => rfl
  refine ⟨{ ge := 0, gd := 0, labels := [], val := fun _ _ => Measure.dirac o0, val' := fun _ _ => Measure.dirac o0, ve := fun _ => 0,
            vd := fun _ => 0, prob := fun k => by rw [hd]; infer_instance, prob' := fun k => by rw [hd]; infer_instance,
            num_prob := fun k l => by rw [ho]; infer_instance, num_prob' := fun k l => by rw [ho]; infer_instance,
            nodup := List.nodup_nil, val_eq := fun k l => Or.inr (hd k), val_eq' := fun k l => Or.inr (hd k),
            val_prob := fun _ _ => inferInstance, val_prob' := fun _ _ => inferInstance, gd_nonneg := le_rfl,
            vd_nonneg := by simp, close := ?_, close' := ?_, val_close := by simp, val_close' := by simp }, ?_, ?_⟩
  · intro ι _ f _; exact Indist.refl _
  · intro ι _ f _; exact Indist.refl _
  · simp [GPair.e]
  · simp [GPair.d]

/-- One step. -/
theorem xstep_pair {lib : Library} (hlib : lib.Contract) {s : Specs} {ε δ : ℕ → ℝ} {cls : ℕ → CustomClass V A O} {fmt : ℚ → String}
    (o0 : O) (env : Env K) (henv : env.Lawful) (pid : R → P) (data : List R) (u : P) {c : XStep R K V} (hs : c.Supported cls)
    (hu : c.Promised pid data u) {rs rs' : List Request} {st st1 st' : Store} {b ops}
    (hb : buildX cls fmt rs st c = .ok (b, rs', ops, st1)) (hbo : XOk cls s ε δ st' c b) :
    ∃ x x', evalXStep cls lib.sigma s st' env pid data c b = .ok x ∧
      evalXStep cls lib.sigma s st' env pid (removeId pid u data) c b = .ok x' ∧
      ∃ (q : Pair lib x.1 x'.1) (g : GPair o0 (customDecision lib x.2) (customDecision lib x'.2) (customOutput o0 x.2)
          (customOutput o0 x'.2)),
        q.e + g.e ≤ (b.specs.map ε).sum ∧ q.d + g.d ≤ (b.specs.map δ).sum := by
  cases c with
  | step c =>
    cases b with
    | custom l sel => exact hbo.elim
    | step b =>
      simp only [buildX] at hb
      rcases hx : buildStep fmt rs c with e | ⟨b', rs1, ops1⟩
      · rw [hx] at hb; cases hb
      · rw [hx] at hb
        simp only [Except.ok.injEq, Prod.mk.injEq, BuiltX.step.injEq] at hb
        obtain ⟨rfl, rfl, rfl, rfl⟩ := hb
        obtain ⟨hp, -⟩ := buildStep_spec (Step.Supported.any hs) hx
        obtain ⟨x, x', h1, h2, q, h3, h4⟩ := step_pair hlib env henv pid data u hs hu hp hbo
        obtain ⟨g, g1, g2⟩ := empty_custom (K := K) lib o0
        refine ⟨(x, []), (x', []), by simp only [evalXStep, h1], by simp only [evalXStep, h2], q, g, ?_, ?_⟩
        · rw [g1, add_zero]; exact h3
        · rw [g2, add_zero]; exact h4
  | custom c =>
    cases b with
    | step b => exact hbo.elim
    | custom l sel =>
      obtain ⟨⟨z, z1, z2, z3⟩, h2, h3⟩ := hbo
      obtain ⟨x, x', e1, e2, g, g1, g2⟩ := custom_call hlib (show c.Supported cls from hs) z1 z3 h2 h3 o0 env henv pid data u hu
      obtain ⟨q, q1, q2⟩ := empty_pair (K := K) lib
      refine ⟨([], x), ([], x'), by simp only [evalXStep, e1], by simp only [evalXStep, e2], q, g, ?_, ?_⟩
      · rw [q1, zero_add]; rw [z2] at g1; exact g1
      · rw [q2, zero_add]; rw [z2] at g2; exact g2

theorem sum_range_cons (n : ℕ) (f : ℕ → ℝ) :
    ((List.range (n + 1)).map f).sum = f 0 + ((List.range n).map fun j => f (j + 1)).sum := by
  rw [List.range_succ_eq_map, List.map_cons, List.map_map, List.sum_cons]
  rfl

theorem x_pairs {lib : Library} (hlib : lib.Contract) {s : Specs} {ε δ : ℕ → ℝ} {cls : ℕ → CustomClass V A O} {fmt : ℚ → String}
    (o0 : O) (env : ℕ → Env K) (henv : ∀ j, (env j).Lawful) (pid : R → P) (data : List R) (u : P) {cs : List (XStep R K V)}
    (hs : ∀ c ∈ cs, c.Supported cls) (hu : ∀ c ∈ cs, c.Promised pid data u) (st' : Store) :
    ∀ (j : ℕ) {rs : List Request} {st : Store} {bs ops st2}, planX cls fmt rs st cs = .ok (bs, ops, st2) →
      List.Forall₂ (XOk cls s ε δ st') cs bs →
      ∃ L L', evalX cls lib.sigma s st' env pid data j cs bs = .ok L ∧
        evalX cls lib.sigma s st' env pid (removeId pid u data) j cs bs = .ok L' ∧
        L.length = cs.length ∧ L'.length = cs.length ∧
        ∃ (p : ∀ j, Pair lib ((L.map Prod.fst).getD j []) ((L'.map Prod.fst).getD j []))
          (g : ∀ j, GPair o0 (customDecision lib ((L.map Prod.snd).getD j [])) (customDecision lib ((L'.map Prod.snd).getD j []))
            (customOutput o0 ((L.map Prod.snd).getD j [])) (customOutput o0 ((L'.map Prod.snd).getD j []))),
          ((List.range cs.length).map fun j => (p j).e).sum + ((List.range cs.length).map fun j => (g j).e).sum
            ≤ ((bs.flatMap BuiltX.specs).map ε).sum ∧
          ((List.range cs.length).map fun j => (p j).d).sum + ((List.range cs.length).map fun j => (g j).d).sum
            ≤ ((bs.flatMap BuiltX.specs).map δ).sum := by
  induction cs with
  | nil =>
    intro j rs st bs ops st2 h _
    simp only [planX, Except.ok.injEq, Prod.mk.injEq] at h
    obtain ⟨rfl, rfl, rfl⟩ := h
    obtain ⟨q, -, -⟩ := empty_pair (K := K) lib
    obtain ⟨g, -, -⟩ := empty_custom (K := K) lib o0
    exact ⟨[], [], rfl, rfl, rfl, rfl, fun _ => q, fun _ => g, by simp, by simp⟩
  | cons c cs ih =>
    intro j rs st bs ops st2 h hbo
    rw [planX] at h
    rcases hb : buildX cls fmt rs st c with e | ⟨b, rs1, ops1, st1⟩
    · rw [hb] at h; cases h
    · rw [hb] at h
      dsimp only at h
      rcases hp : planX cls fmt rs1 st1 cs with e | ⟨bs', ops', st3⟩
      · rw [hp] at h; cases h
      · rw [hp] at h
        simp only [Except.ok.injEq, Prod.mk.injEq] at h
        obtain ⟨rfl, rfl, rfl⟩ := h
        cases hbo with
        | cons hbo1 hbo2 =>
        obtain ⟨x, x', h1, h2, q, gq, hq1, hq2⟩ := xstep_pair hlib o0 (env j) (henv j) pid data u (hs c (by simp)) (hu c (by simp)) hb hbo1
        obtain ⟨L, L', g1, g2, g3, g4, p, g, g5, g6⟩ := ih (fun c hc => hs c (by simp [hc])) (fun c hc => hu c (by simp [hc]))
          (j + 1) hp hbo2
        let p' : ∀ j, Pair lib (((x :: L).map Prod.fst).getD j []) (((x' :: L').map Prod.fst).getD j []) := fun j =>
          match j with
          | 0 => q
          | j + 1 => p j
        let g' : ∀ j, GPair o0 (customDecision lib (((x :: L).map Prod.snd).getD j []))
            (customDecision lib (((x' :: L').map Prod.snd).getD j [])) (customOutput o0 (((x :: L).map Prod.snd).getD j []))
            (customOutput o0 (((x' :: L').map Prod.snd).getD j [])) := fun j =>
          match j with
          | 0 => gq
          | j + 1 => g j
        refine ⟨x :: L, x' :: L', by simp only [evalX, h1, g1], by simp only [evalX, h2, g2], by simp [g3], by simp [g4], p', g', ?_, ?_⟩
        · rw [List.length_cons, sum_range_cons, sum_range_cons, List.flatMap_cons, List.map_append, List.sum_append]
          have : (q.e + gq.e) + (((List.range cs.length).map fun j => (p j).e).sum + ((List.range cs.length).map fun j => (g j).e).sum)
              ≤ (b.specs.map ε).sum + ((bs'.flatMap BuiltX.specs).map ε).sum := add_le_add hq1 g5
          refine le_trans (le_of_eq ?_) this
          show q.e + ((List.range cs.length).map fun j => (p j).e).sum + (gq.e + ((List.range cs.length).map fun j => (g j).e).sum) = _
          ring
        · rw [List.length_cons, sum_range_cons, sum_range_cons, List.flatMap_cons, List.map_append, List.sum_append]
          have : (q.d + gq.d) + (((List.range cs.length).map fun j => (p j).d).sum + ((List.range cs.length).map fun j => (g j).d).sum)
              ≤ (b.specs.map δ).sum + ((bs'.flatMap BuiltX.specs).map δ).sum := add_le_add hq2 g6
          refine le_trans (le_of_eq ?_) this
          show q.d + ((List.range cs.length).map fun j => (p j).d).sum + (gq.d + ((List.range cs.length).map fun j => (g j).d).sum) = _
          ring

theorem GPair.d_nonneg {x0 : O} {D D' : K → Measure (Bool × ℝ)} {N N' : K → ℕ → Measure O} (p : GPair x0 D D' N N') : 0 ≤ p.d := by
  unfold GPair.d
  refine add_nonneg p.gd_nonneg (List.sum_nonneg ?_)
  intro y hy
  obtain ⟨l, hl, rfl⟩ := List.mem_map.mp hy
  exact p.vd_nonneg l hl

theorem pair_d_nonneg {lib : Library} {L L' : List (Candidate K)} (p : Pair lib L L') : 0 ≤ p.d := by
  unfold Pair.d
  refine add_nonneg p.gd_nonneg (List.sum_nonneg ?_)
  intro y hy
  obtain ⟨l, hl, rfl⟩ := List.mem_map.mp hy
  exact p.vd_nonneg l

/-- **C74.**  A pipeline of any `aggregate` calls with custom combiners, and any `aggregate`, `select_partitions` and
`add_dp_noise` calls, on one naive accountant with total budget `(e, d)` is `(e, d)`-differentially private, if every combiner object
is used once and keeps its contract (`CustomClass.Private`), PyDP keeps its promises, and the user those of `XStep.Promised`.  As in
C62, the random choices `ω` have any distribution `μ`, and `U` is any finite set of (step, partition). -/
theorem C74_custom_pipeline_is_differentially_private (fmt : ℚ → String) (lib : Library) (hlib : lib.Contract)
    (cls : ℕ → CustomClass V A O) (o0 : O) {e d : ℚ} {num ws s0} (h0 : Budget.init e d num ws = .ok s0) (cs : List (XStep R K V))
    (hs : ∀ c ∈ cs, c.Supported cls) (hn : (cs.flatMap XStep.objects).Nodup)
    (hd : (∃ c ∈ cs, c.NeedsDelta cls) → 0 < d) {st bs ops st'} (hp : planX cls fmt [] st cs = .ok (bs, ops, st'))
    (hc : (Budget.step (Budget.run s0 ops).1 .compute).2 = .unit)
    {Ω : Type} [MeasurableSpace Ω] (μ : Measure Ω) [IsProbabilityMeasure μ] (env : Ω → ℕ → Env K)
    (henv : ∀ ω j, (env ω j).Lawful) (pid : R → P) (data : List R) (u : P) (hu : ∀ c ∈ cs, c.Promised pid data u) :
    let s := specOf (Budget.step (Budget.run s0 ops).1 .compute).1
    ∃ L L' : Ω → List (List (Candidate K) × List (CustomCandidate K O)),
      (∀ ω, evalX cls lib.sigma s st' (env ω) pid data 0 cs bs = .ok (L ω) ∧
        evalX cls lib.sigma s st' (env ω) pid (data.filter fun r => pid r ≠ u) 0 cs bs = .ok (L' ω)) ∧
      ∀ (U : Finset (ℕ × K)) (S : Finset (ℕ × ℕ)) (T : Finset ℕ),
        (∀ ω, IsProbabilityMeasure (observedX lib o0 U S T (L ω)) ∧ IsProbabilityMeasure (observedX lib o0 U S T (L' ω))) ∧
        ∀ B, MeasurableSet B →
          ∫⁻ ω, observedX lib o0 U S T (L ω) B ∂μ
            ≤ ENNReal.ofReal (Real.exp e) * ∫⁻ ω, observedX lib o0 U S T (L' ω) B ∂μ + ENNReal.ofReal d ∧
          ∫⁻ ω, observedX lib o0 U S T (L' ω) B ∂μ
            ≤ ENNReal.ofReal (Real.exp e) * ∫⁻ ω, observedX lib o0 U S T (L ω) B ∂μ + ENNReal.ofReal d := by
  intro s
  obtain ⟨hplain, -, new, hreq, hspecs, hrq, hnd⟩ := planX_spec (fun c hc => (hs c hc).any) hn hp
  obtain ⟨ε, δ, hok, hε, hδ⟩ := budgets_published hplain hreq h0 (fun r hr hne => hd (hnd r hr hne)) hc
  have hbo : List.Forall₂ (XOk cls s ε δ st') cs bs := hrq.imp fun c b h => xOk_of_requested hok (by rwa [List.nil_append] at h)
  have key := fun ω => x_pairs hlib o0 (env ω) (henv ω) pid data u hs hu st' 0 hp hbo
  rw [List.length_nil] at hspecs
  rw [hspecs] at key
  choose L L' a1 a2 a3 a4 p g a5 a6 using key
  have hempty : ∀ (M : List (List (Candidate K) × List (CustomCandidate K O))) (j : ℕ) (k : K), M.length ≤ j →
      customDecision lib ((M.map Prod.snd).getD j []) k = Measure.dirac (false, 0) := by
    intro M j k hj
    rw [getD_of_ge _ _ (by simpa using hj)]
    rfl
  have hsn : ∀ (ω) , 0 ≤ ((List.range cs.length).map fun j => (p ω j).d).sum ∧ 0 ≤ ((List.range cs.length).map fun j => (g ω j).d).sum := by
    intro ω
    constructor <;> refine List.sum_nonneg ?_ <;> intro y hy <;> obtain ⟨j, -, rfl⟩ := List.mem_map.mp hy
    · exact pair_d_nonneg _
    · exact (g ω j).d_nonneg
  refine ⟨L, L', fun ω => ⟨a1 ω, a2 ω⟩, fun U S T => ?_⟩
  have q1 : ∀ ω, IsProbabilityMeasure (observedLaw lib U S ((L ω).map Prod.fst)) := fun ω => observedLaw_prob (p ω) U S
  have q1' : ∀ ω, IsProbabilityMeasure (observedLaw lib U S ((L' ω).map Prod.fst)) := fun ω => observedLaw_prob (fun j => (p ω j).swap) U S
  have q2 : ∀ ω, IsProbabilityMeasure (veiledLaw o0 U T (fun j => customDecision lib (((L ω).map Prod.snd).getD j []))
      fun j => customOutput o0 (((L ω).map Prod.snd).getD j [])) := fun ω => veiledLaw_prob (g ω) U T
  have q2' : ∀ ω, IsProbabilityMeasure (veiledLaw o0 U T (fun j => customDecision lib (((L' ω).map Prod.snd).getD j []))
      fun j => customOutput o0 (((L' ω).map Prod.snd).getD j [])) := fun ω => veiledLaw_prob (fun j => (g ω j).swap) U T
  refine ⟨fun ω => ⟨?_, ?_⟩, fun B hB => ?_⟩
  · unfold observedX; infer_instance
  · unfold observedX; infer_instance
  · have fin : ∀ f g : Ω → ENNReal, (∀ ω, f ω ≤ ENNReal.ofReal (Real.exp e) * g ω + ENNReal.ofReal d) →
        ∫⁻ ω, f ω ∂μ ≤ ENNReal.ofReal (Real.exp e) * ∫⁻ ω, g ω ∂μ + ENNReal.ofReal d := by
      intro f g hfg
      refine (lintegral_mono hfg).trans ?_
      rw [lintegral_add_right _ measurable_const, lintegral_const_mul' _ _ ENNReal.ofReal_ne_top]
      simp
    constructor
    · refine fin _ _ fun ω => ?_
      have i1 := observed_indist cs.length (p ω) (by rw [List.length_map]; exact a3 ω) (by rw [List.length_map]; exact a4 ω) U S
      have i2 := veiled_indist cs.length (g ω) (fun j k hj => hempty _ j k (by rw [a3 ω]; exact hj))
        (fun j k hj => hempty _ j k (by rw [a4 ω]; exact hj)) U T
      exact ((i1.prod i2 (hsn ω).1 (hsn ω).2).mono ((a5 ω).trans hε) ((a6 ω).trans hδ)) B hB
    · refine fin _ _ fun ω => ?_
      have i1 := observed_indist cs.length (fun j => (p ω j).swap) (by rw [List.length_map]; exact a4 ω)
        (by rw [List.length_map]; exact a3 ω) U S
      have i2 := veiled_indist cs.length (fun j => (g ω j).swap) (fun j k hj => hempty _ j k (by rw [a4 ω]; exact hj))
        (fun j k hj => hempty _ j k (by rw [a3 ω]; exact hj)) U T
      exact ((i1.prod i2 (hsn ω).1 (hsn ω).2).mono ((a5 ω).trans hε) ((a6 ω).trans hδ)) B hB

end PDP.EndToEnd
