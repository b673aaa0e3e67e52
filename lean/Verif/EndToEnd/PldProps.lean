import Verif.EndToEnd.PldCall

/-! # A whole pipeline with a PLD accountant is differentially private (C67) -/

set_option linter.unusedSectionVars false

namespace PDP.EndToEnd

open PDP PDP.Engine MeasureTheory
open PDP.Budget (State Op MechType)
open PDP.Budget.Pld (PldLib grant grantedPld composeDistributions composedEps minimumNoiseStd)
open PDP.Approx (Indist)

variable {R P K : Type} [DecidableEq P] [DecidableEq K]

/-! ### The accountant -/

theorem pldStep_plain {s : State} {op : Op} (h : PlainAny op) : pldStep s op = Budget.step s op := by
  cases op with
  | request t sens w c n =>
    obtain ⟨hw, rfl, rfl⟩ := h
    simp only [pldStep, pldRequest, Budget.step, Budget.requestBudget]
    by_cases h1 : s.finalized = true
    · simp [h1]
    · by_cases h2 : t = .gaussian ∧ s.totalDelta = 0
      · simp [h1, h2]
      · simp [h1, h2]
  | _ => rfl

theorem pldRun_plain (ops : List Op) (h : ∀ op ∈ ops, PlainAny op) : ∀ s, pldRun s ops = Budget.run s ops := by
  induction ops with
  | nil => intro s; rfl
  | cons op ops ih =>
    intro s
    simp only [pldRun, Budget.run, pldStep_plain (h op (by simp)), ih fun o ho => h o (by simp [ho])]

/-- Requests with sensitivity 1. -/
def UnitOp : Op → Prop
  | .request _ sens _ _ _ => sens = 1
  | _ => True

theorem planCalls_unit {fmt : ℚ → String} (cs : List (Call R K)) : ∀ {rs bs ops}, planCalls fmt rs cs = .ok (bs, ops) →
    ∀ op ∈ ops, UnitOp op := by
  induction cs with
  | nil =>
    intro rs bs ops h
    simp only [planCalls, Except.ok.injEq, Prod.mk.injEq] at h
    obtain ⟨rfl, rfl⟩ := h
    simp
  | cons c cs ih =>
    intro rs bs ops h
    rcases hx : build fmt rs c with ⟨r, rs'⟩
    rw [planCalls, hx] at h
    rcases r with e | b
    · simp at h
    · dsimp only at h
      rcases hp : planCalls fmt rs' cs with e | ⟨bs', ops'⟩
      · rw [hp] at h; simp at h
      · rw [hp] at h
        simp only [Except.ok.injEq, Prod.mk.injEq] at h
        obtain ⟨rfl, rfl⟩ := h
        intro op hop
        rcases List.mem_append.mp hop with hop | hop
        · simp only [callOps, List.cons_append, List.mem_cons, List.mem_append, List.mem_map, List.not_mem_nil, or_false] at hop
          rcases hop with rfl | ⟨r, hr, rfl⟩ | rfl | rfl
          · trivial
          · rfl
          · trivial
          · trivial
        · exact ih hp op hop

theorem unit_run (ops : List Op) (h : ∀ op ∈ ops, PlainAny op) (h' : ∀ op ∈ ops, UnitOp op) : ∀ s : State,
    (∀ m ∈ s.mechs, m.sensitivity = 1) → ∀ m ∈ (Budget.run s ops).1.mechs, m.sensitivity = 1 := by
  induction ops with
  | nil => intro s hs; exact hs
  | cons op ops ih =>
    intro s hs
    rw [Budget.run_cons]
    refine ih (fun o ho => h o (by simp [ho])) (fun o ho => h' o (by simp [ho])) _ ?_
    have h1 := h op (by simp)
    have h2 := h' op (by simp)
    cases op with
    | request t sens w c n =>
      simp only [Budget.step, Budget.requestBudget]
      split_ifs
      · exact hs
      · exact hs
      · exact hs
      · simp only [Budget.register, List.mem_append, List.mem_singleton]
        rintro m (hm | rfl)
        · exact hs m hm
        · exact h2
    | enter w => exact hs
    | exit =>
      simp only [Budget.step]
      have key : ∀ m ∈ (Budget.exitScope s).1.mechs, m.sensitivity = 1 := by
        unfold Budget.exitScope
        split
        · exact hs
        · dsimp only
          split_ifs
          · exact hs
          · exact hs
          · intro m hm
            dsimp only at hm
            have := Budget.map_scaleAll Budget.Mech.sensitivity (fun _ _ => rfl)
            have hmem := List.mem_map_of_mem (f := Budget.Mech.sensitivity) hm
            rw [this] at hmem
            obtain ⟨m', hm', he⟩ := List.mem_map.mp hmem
            rw [← he]; exact hs m' hm'
      generalize Budget.exitScope s = x at key
      rcases x with ⟨s', _ | _⟩ <;> exact key
    | aggregation w =>
      simp only [Budget.step]
      have key : (Budget.computeBudgetForAggregation s w).1.mechs = s.mechs := by
        unfold Budget.computeBudgetForAggregation
        dsimp only
        split
        · rfl
        · split
          · split <;> rfl
          · rfl
      generalize Budget.computeBudgetForAggregation s w = x at key
      rcases x with ⟨s', _ | _⟩ <;> (dsimp only at key ⊢; rw [key]; exact hs)
    | compute => exact h1.elim
    | readEps i => exact h1.elim
    | readDelta i => exact h1.elim

/-- The state of the accountant when the graph is built. -/
structure Ready (e d : ℚ) (new : List Request) (s : State) : Prop where
  te : s.totalEps = e
  td : s.totalDelta = d
  types : s.mechs.map Budget.Mech.mtype = new.map fun r => toMechType r.mechanism
  weights : ∀ m ∈ s.mechs, 0 < m.weight
  sens : ∀ m ∈ s.mechs, m.sensitivity = 1

theorem ready_run {e d : ℚ} {num ws s0} (h0 : Budget.init e d num ws = .ok s0) {ops : List Op}
    (hplain : ∀ op ∈ ops, PlainAny op) (hunit : ∀ op ∈ ops, UnitOp op) {new : List Request}
    (hreq : ops.filterMap reqOf = new.map fun r => (toMechType r.mechanism, (1 : ℤ)))
    (hd : ∀ r ∈ new, r.mechanism ≠ .laplace → 0 < d) : Ready e d new (pldRun s0 ops).1 := by
  rw [pldRun_plain ops hplain]
  obtain ⟨hepos, hdnn, -, rfl, -⟩ := Budget.init_facts h0
  have hacc := accepted_any ops hplain ⟨e, d, num, ws, [], [], [], false⟩ rfl (by
    intro c hc
    rw [hreq] at hc
    obtain ⟨r, hr, h⟩ := List.mem_map.mp hc
    refine (hd r hr ?_).ne'
    intro h'
    rw [h'] at h
    simp [toMechType] at h)
  rw [hreq] at hacc
  have hI := Budget.inv_run (Budget.inv_init h0) ops
  rw [List.nil_append, hacc] at hI
  have hS := Budget.sgnInv_run (b := true) hepos hdnn (Budget.sgnInv_init h0) ops (fun op hop => (hplain op hop).positive.sgn)
  refine ⟨hI.te, hI.td, ?_, ?_, ?_⟩
  · have := congrArg (List.map Prod.fst) hI.reqs
    simpa only [List.map_map, Function.comp_def] using this
  · intro m hm
    have := hS.weights m hm
    simpa [Budget.sgn] using this
  · exact unit_run ops hplain hunit _ (by simp)

/-! ### What the calls build -/

theorem build_plain {fmt : ℚ → String} {rs rs' : List Request} {c : Call R K} (hs : c.Supported) (hchk : c.pldCheck = .ok ())
    {b : Built} (hb : build fmt rs c = (.ok b, rs')) : (∀ part ∈ b.parts, PlainPart part) ∧ b.selection = none := by
  cases c with
  | select p key => rw [pldCheck_select] at hchk; cases hchk
  | aggregate p pub key value =>
    obtain ⟨⟨ps, rfl⟩, hm⟩ := pldCheck_spec hchk
    obtain ⟨⟨rs1, hcc⟩, hsel⟩ := build_aggregate hb
    have hpt : p.postThresholding = false := by
      by_contra h
      have := (SupportedAggregate.thresholding hs (by simpa using h)).1
      cases this
    refine ⟨parts_plain hm hpt hcc, ?_⟩
    have hsp : selectsPrivately p (some ps) = false := by simp [selectsPrivately]
    rw [hsp] at hsel
    simpa using hsel

theorem planCalls_plain {fmt : ℚ → String} {cs : List (Call R K)} (hs : ∀ c ∈ cs, c.Supported)
    (hchk : ∀ c ∈ cs, c.pldCheck = .ok ()) : ∀ {rs bs ops}, planCalls fmt rs cs = .ok (bs, ops) →
    ∀ b ∈ bs, ∃ c, (c, b) ∈ cs.zip bs ∧ (∀ part ∈ b.parts, PlainPart part) ∧ b.selection = none := by
  induction cs with
  | nil =>
    intro rs bs ops h
    simp only [planCalls, Except.ok.injEq, Prod.mk.injEq] at h
    obtain ⟨rfl, rfl⟩ := h
    simp
  | cons c cs ih =>
    intro rs bs ops h
    rcases hx : build fmt rs c with ⟨r, rs'⟩
    rw [planCalls, hx] at h
    rcases r with e | b
    · simp at h
    · dsimp only at h
      rcases hp : planCalls fmt rs' cs with e | ⟨bs', ops'⟩
      · rw [hp] at h; simp at h
      · rw [hp] at h
        simp only [Except.ok.injEq, Prod.mk.injEq] at h
        obtain ⟨rfl, rfl⟩ := h
        intro b' hb'
        rcases List.mem_cons.mp hb' with rfl | hb'
        · exact ⟨c, by simp, build_plain (hs c (by simp)) (hchk c (by simp)) hx⟩
        · obtain ⟨c', h1, h2⟩ := ih (fun c hc => hs c (by simp [hc])) (fun c hc => hchk c (by simp [hc])) hp b' hb'
          exact ⟨c', by rw [List.zip_cons_cons]; exact List.mem_cons_of_mem _ h1, h2⟩

/-- The public partitions of a call. -/
def publicAt (cs : List (Call R K)) (j : ℕ) : List K := (cs[j]?).elim [] Call.public

/-- The budgets of a call. -/
def specsAt (bs : List Built) (j : ℕ) : List ℕ := (bs[j]?).elim [] Built.specs

theorem specsAt_mem {bs : List Built} {j i : ℕ} (h : i ∈ specsAt bs j) : i ∈ bs.flatMap Built.specs := by
  unfold specsAt at h
  cases hb : bs[j]? with
  | none => rw [hb] at h; simp at h
  | some b =>
    rw [hb] at h
    exact List.mem_flatMap.mpr ⟨b, List.mem_of_getElem? hb, h⟩

theorem specsAt_unique {bs : List Built} (hn : (bs.flatMap Built.specs).Nodup) : ∀ {i j j' : ℕ}, i ∈ specsAt bs j →
    i ∈ specsAt bs j' → j = j' := by
  induction bs with
  | nil => intro i j j' h; simp [specsAt] at h
  | cons b bs ih =>
    rw [List.flatMap_cons, List.nodup_append] at hn
    obtain ⟨-, n2, n3⟩ := hn
    intro i j j' h h'
    rcases j with _ | j <;> rcases j' with _ | j'
    · rfl
    · exact absurd rfl (n3 i (by simpa [specsAt] using h) i (specsAt_mem (j := j') (by simpa [specsAt] using h')))
    · exact absurd rfl (n3 i (by simpa [specsAt] using h') i (specsAt_mem (j := j) (by simpa [specsAt] using h)))
    · exact congrArg (· + 1) (ih n2 (by simpa [specsAt] using h) (by simpa [specsAt] using h'))

/-- All calls on two neighbouring datasets. -/
structure Runs (lib : Library) (s : Specs) (cs : List (Call R K)) (bs : List Built) (L L' : List (List (Candidate K)))
    (val val' : ℕ → K → Measure ℝ) : Prop where
  decision : ∀ j k, decisionLaw lib (L.getD j []) k = decisionLaw lib (L'.getD j []) k ∧
    IsProbabilityMeasure (decisionLaw lib (L.getD j []) k)
  number : ∀ j k l, numberLaw (L.getD j []) k l
    = if l.2 = 0 ∧ l.1 ∈ specsAt bs j ∧ k ∈ publicAt cs j then val l.1 k else Measure.dirac 0
  number' : ∀ j k l, numberLaw (L'.getD j []) k l
    = if l.2 = 0 ∧ l.1 ∈ specsAt bs j ∧ k ∈ publicAt cs j then val' l.1 k else Measure.dirac 0
  calibrated : ∀ i ∈ bs.flatMap Built.specs, Calibrated (s i) (val i) (val' i)

theorem pld_calls (lib : Library) {s : Specs} {fmt : ℚ → String} (env : ℕ → Env K) (henv : ∀ j, (env j).Lawful) (pid : R → P)
    (data : List R) (u : P) {cs : List (Call R K)} (hs : ∀ c ∈ cs, c.Supported) (hchk : ∀ c ∈ cs, c.pldCheck = .ok ())
    (hu : ∀ c ∈ cs, c.Promised pid data u) :
    ∀ (j : ℕ) {rs : List Request} {bs ops}, planCalls fmt rs cs = .ok (bs, ops) →
      (∀ x ∈ cs.zip bs, ∀ part ∈ x.2.parts, ∀ i ∈ part.specs, StdOk s i (part.mechanism x.1.kind)) →
      (bs.flatMap Built.specs).Nodup →
      ∃ L L', evalCalls lib.sigma s env pid data j cs bs = .ok L ∧
        evalCalls lib.sigma s env pid (removeId pid u data) j cs bs = .ok L' ∧
        ∃ val val', Runs lib s cs bs L L' val val' := by
  induction cs with
  | nil =>
    intro j rs bs ops h _ _
    simp only [planCalls, Except.ok.injEq, Prod.mk.injEq] at h
    obtain ⟨rfl, rfl⟩ := h
    refine ⟨[], [], rfl, rfl, fun _ _ => Measure.dirac 0, fun _ _ => Measure.dirac 0, ?_, ?_, ?_, by simp⟩
    · intro j k
      refine ⟨rfl, ?_⟩
      unfold decisionLaw; simp only [List.getD_nil, List.find?_nil]; infer_instance
    · intro j k l
      simp [numberLaw]
    · intro j k l
      simp [numberLaw]
  | cons c cs ih =>
    intro j rs bs ops h hstd hnd
    have hc := hs c (by simp)
    have hck := hchk c (by simp)
    rcases hx : build fmt rs c with ⟨r, rs'⟩
    rw [planCalls, hx] at h
    rcases r with e | b
    · simp at h
    · dsimp only at h
      rcases hp : planCalls fmt rs' cs with e | ⟨bs', ops'⟩
      · rw [hp] at h; simp at h
      · rw [hp] at h
        simp only [Except.ok.injEq, Prod.mk.injEq] at h
        obtain ⟨rfl, rfl⟩ := h
        rw [List.flatMap_cons, List.nodup_append] at hnd
        obtain ⟨n1, n2, n3⟩ := hnd
        cases c with
        | select p key => rw [pldCheck_select] at hck; cases hck
        | aggregate p pub key value =>
          obtain ⟨x, x', h1, h2, hdec, v, v', hv, hv', hcal⟩ := public_call lib (s := s) hc hck hx
            (hstd (.aggregate p pub key value, b) (by simp)) (n1.sublist (by
              rw [Built.specs]; exact List.sublist_append_left _ _)) (env j) (henv j) pid data u (hu _ (by simp))
          obtain ⟨L, L', g1, g2, w, w', hR⟩ := ih (fun c hc => hs c (by simp [hc])) (fun c hc => hchk c (by simp [hc]))
            (fun c hc => hu c (by simp [hc])) (j + 1) hp
            (fun x hx => hstd x (by rw [List.zip_cons_cons]; exact List.mem_cons_of_mem _ hx)) n2
          refine ⟨x :: L, x' :: L', by simp only [evalCalls, h1, g1], by simp only [evalCalls, h2, g2],
            fun i => if i ∈ b.specs then v i else w i, fun i => if i ∈ b.specs then v' i else w' i, ?_, ?_, ?_, ?_⟩
          · intro j k
            cases j with
            | zero => exact hdec k
            | succ j => exact hR.decision j k
          · intro j k l
            cases j with
            | zero =>
              refine (hv k l).trans ?_
              by_cases hl : l.1 ∈ b.specs
              · simp [specsAt, publicAt, hl]
              · simp [specsAt, hl]
            | succ j =>
              refine (hR.number j k l).trans ?_
              by_cases hl : l.1 ∈ specsAt bs' j
              · have : l.1 ∉ b.specs := fun h => n3 _ h _ (specsAt_mem hl) rfl
                have e1 : specsAt (b :: bs') (j + 1) = specsAt bs' j := by simp [specsAt]
                have e2 : publicAt (Call.aggregate p pub key value :: cs) (j + 1) = publicAt cs j := by simp [publicAt]
                simp [e1, e2, this]
              · have e1 : specsAt (b :: bs') (j + 1) = specsAt bs' j := by simp [specsAt]
                simp [e1, hl]
          · intro j k l
            cases j with
            | zero =>
              refine (hv' k l).trans ?_
              by_cases hl : l.1 ∈ b.specs
              · simp [specsAt, publicAt, hl]
              · simp [specsAt, hl]
            | succ j =>
              refine (hR.number' j k l).trans ?_
              by_cases hl : l.1 ∈ specsAt bs' j
              · have : l.1 ∉ b.specs := fun h => n3 _ h _ (specsAt_mem hl) rfl
                have e1 : specsAt (b :: bs') (j + 1) = specsAt bs' j := by simp [specsAt]
                have e2 : publicAt (Call.aggregate p pub key value :: cs) (j + 1) = publicAt cs j := by simp [publicAt]
                simp [e1, e2, this]
              · have e1 : specsAt (b :: bs') (j + 1) = specsAt bs' j := by simp [specsAt]
                simp [e1, hl]
          · intro i hi
            rw [List.flatMap_cons, List.mem_append] at hi
            by_cases hb : i ∈ b.specs
            · simp only [hb, if_true]; exact hcal i hb
            · simp only [hb, if_false]
              exact hR.calibrated i (hi.resolve_left hb)

/-! ### What is published -/

/-- The first `n` budgets together are private: one number for every budget and partition. -/
def SpecsPrivate (K : Type) (e d : ℝ) (n : ℕ) (s : Specs) : Prop :=
  ∀ {ι : Type} [Fintype ι] (g : ι → ℕ) (κ : ι → K), (∀ i, g i < n) → Function.Injective (fun i => (g i, κ i)) →
    ∀ val val' : ℕ → K → Measure ℝ, (∀ m < n, Calibrated (s m) (val m) (val' m)) →
      Indist e d (Measure.pi fun i => val (g i) (κ i)) (Measure.pi fun i => val' (g i) (κ i))

theorem pldMechs_get {st : State} {i : ℕ} {m : Budget.Mech} (h : st.mechs[i]? = some m) :
    (pldMechs st)[i]? = some ⟨m.mtype, (m.sensitivity : ℝ), (m.weight : ℝ)⟩ := by
  simp [pldMechs, h]

theorem pld_specs {pl : PldLib} (C : PldContract pl) {fuel : ℕ} {e d : ℚ} (he : 0 < e) (hd0 : 0 ≤ d) (hd1 : d < 1)
    {new : List Request} {st : State} (hr : Ready e d new st) {s : Specs} (hc : pldCompute pl fuel st = .ok s)
    (hlg : ∀ r ∈ new, r.mechanism = .laplace ∨ r.mechanism = .gaussian)
    (hl : d = 0 → ∀ r ∈ new, r.mechanism = .laplace) :
    (∀ i r, new[i]? = some r → StdOk s i r.mechanism) ∧ SpecsPrivate K e d new.length s := by
  have heR : (0 : ℝ) < e := by exact_mod_cast he
  have hd0R : (0 : ℝ) ≤ d := by exact_mod_cast hd0
  have hd1R : (d : ℝ) < 1 := by exact_mod_cast hd1
  have hlen : st.mechs.length = new.length := by
    have := congrArg List.length hr.types
    simpa using this
  by_cases hnil : new = []
  · subst hnil
    refine ⟨by simp, ?_⟩
    intro ι _ g κ hg _ val val' _
    have : IsEmpty ι := ⟨fun i => absurd (hg i) (by simp)⟩
    have e1 : (fun i => val (g i) (κ i)) = fun i => val' (g i) (κ i) := by funext i; exact isEmptyElim i
    rw [e1]
    exact (Indist.refl _).mono heR.le hd0R
  have hne : st.mechs ≠ [] := by
    intro h
    rw [h] at hlen
    exact hnil (List.length_eq_zero_iff.mp hlen.symm)
  -- every mechanism
  have hm : ∀ (i : ℕ) (r : Request), new[i]? = some r → ∃ m : Budget.Mech, st.mechs[i]? = some m ∧ m.mtype = toMechType r.mechanism ∧ 0 < m.weight ∧
      m.sensitivity = 1 := by
    intro i r hi
    have h := congrArg (fun l => l[i]?) hr.types
    simp only [List.getElem?_map, hi, Option.map_some] at h
    obtain ⟨m, h1, h2⟩ := Option.map_eq_some_iff.mp h
    have hmem := List.mem_of_getElem? h1
    exact ⟨m, h1, h2, hr.weights m hmem, hr.sens m hmem⟩
  have hmech : ∀ m ∈ pldMechs st, (m.mtype = .laplace ∨ m.mtype = .gaussian) ∧ (d = 0 → m.mtype = .laplace) ∧
      0 < m.weight ∧ m.sensitivity = 1 := by
    intro m hmem
    obtain ⟨m', hm', rfl⟩ := List.mem_map.mp hmem
    have ht : m'.mtype ∈ new.map fun r => toMechType r.mechanism := by
      rw [← hr.types]; exact List.mem_map_of_mem hm'
    obtain ⟨r, hrm, hrt⟩ := List.mem_map.mp ht
    refine ⟨?_, ?_, by dsimp only; exact_mod_cast hr.weights m' hm', by dsimp only; rw [hr.sens m' hm']; norm_num⟩
    · dsimp only
      rw [← hrt]
      rcases hlg r hrm with h | h <;> rw [h]
      · exact .inl rfl
      · exact .inr rfl
    · intro h0
      dsimp only
      rw [← hrt, hl h0 r hrm]; rfl
  have hmne : pldMechs st ≠ [] := by simpa [pldMechs] using hne
  have hmlen : (pldMechs st).length = new.length := by simp [pldMechs, hlen]
  unfold pldCompute at hc
  rw [hr.te, hr.td] at hc
  split_ifs at hc with h1 h2 h3 h4
  rcases hσ : minimumNoiseStd (fun σ => (composedEps pl e d (pldMechs st) σ).getD 0) e d (pldMechs st) fuel with _ | σ
  · rw [hσ] at hc; cases hc
  rw [hσ] at hc
  simp only [Except.ok.injEq] at hc
  subst hc
  have hspec : ∀ (i : ℕ) (m : Budget.Pld.Mech), (pldMechs st)[i]? = some m → pldSpecs st σ i = ⟨m.mtype, some (σ / m.weight), none, none⟩ := by
    intro i m hi
    obtain ⟨hh, -, -, hs1⟩ := hmech m (List.mem_of_getElem? hi)
    unfold pldSpecs
    rw [hi]
    have hg : m.mtype ≠ .generic := by rcases hh with h | h <;> rw [h] <;> decide
    simp [grant, hs1, hg]
  -- the noise is positive
  have hσpos : 0 < σ := by
    unfold minimumNoiseStd at hσ
    split_ifs at hσ with h0
    · simp only [Option.some.injEq] at hσ
      rw [← hσ, Budget.Pld.foldl_weight, zero_add]
      have hW : 0 < ((pldMechs st).map Budget.Pld.Mech.weight).sum := by
        apply List.sum_pos _ _ (by simpa using hmne)
        intro x hx
        obtain ⟨m, hm, rfl⟩ := List.mem_map.mp hx
        exact (hmech m hm).2.2.1
      positivity
    · exact (Budget.Pld.C06_search_sound hσ).2
  refine ⟨?_, ?_⟩
  · intro i r hi
    obtain ⟨m, h1, h2, h3, h4⟩ := hm i r hi
    have h3' : (0 : ℝ) < m.weight := by exact_mod_cast h3
    exact ⟨σ / m.weight, by positivity, by rw [hspec i _ (pldMechs_get h1)]; simp [h2]⟩
  · intro ι _ g κ hg hinj val val' hcal
    have hp : ∀ i, IsProbabilityMeasure (val (g i) (κ i)) := fun i => (hcal _ (hg i)).prob _
    have hp' : ∀ i, IsProbabilityMeasure (val' (g i) (κ i)) := fun i => (hcal _ (hg i)).swap.prob _
    have hinj' : ∀ j, Function.Injective fun i : {i // g i = j} => κ i.1 := by
      rintro j ⟨a, ha⟩ ⟨b, hb⟩ hab
      exact Subtype.ext (hinj (Prod.ext (ha.trans hb.symm) hab))
    by_cases hz : d = 0
    · subst hz
      obtain ⟨σ', h1, -, hsum⟩ := Budget.Pld.C07_pure_dp_noise_spends_total heR
        (fun σ => (composedEps pl e (0 : ℚ) (pldMechs st) σ).getD 0) (pldMechs st) hmne
        (fun m hm => ⟨(hmech m hm).2.2.1, by rw [(hmech m hm).2.2.2]; exact one_pos⟩) fuel
      rw [show ((0 : ℚ) : ℝ) = 0 from by norm_num] at hσ
      rw [show ((0 : ℚ) : ℝ) = 0 from by norm_num, hσ] at h1
      cases h1
      have key := Indist.groups (List.range new.length) List.nodup_range
        (fun j => Budget.Pld.laplaceEps 1 ((pldSpecs st σ j).std.getD 0)) (fun _ => 0) (fun _ _ => le_refl _)
        g (fun i => val (g i) (κ i)) (fun i => val' (g i) (κ i)) (fun i hi => absurd (List.mem_range.mpr (hg i)) hi) (by
          intro j hj
          have hj' := List.mem_range.mp hj
          have hj2 : j < (pldMechs st).length := by rw [hmlen]; exact hj'
          have hgj := List.getElem?_eq_getElem hj2
          have hsp := hspec j _ hgj
          have hlap := (hmech _ (List.mem_of_getElem? hgj)).2.1 rfl
          have := (hcal j hj').laplace (by rw [hsp]; exact hlap) (t := σ / (pldMechs st)[j].weight) (by rw [hsp])
            (fun i : {i // g i = j} => κ i.1) (hinj' j)
          rw [hsp]
          have f1 : (fun i : {i // g i = j} => val (g i.1) (κ i.1)) = fun i => val j (κ i.1) := by funext i; rw [i.2]
          have f2 : (fun i : {i // g i = j} => val' (g i.1) (κ i.1)) = fun i => val' j (κ i.1) := by funext i; rw [i.2]
          rw [f1, f2]
          exact this)
      refine key.mono ?_ (by simp)
      rw [← hsum]
      apply le_of_eq
      rw [← hmlen]
      congr 1
      apply List.ext_getElem (by simp)
      intro j a b
      have hj2 : j < (pldMechs st).length := by simpa using a
      have hgj := List.getElem?_eq_getElem hj2
      simp only [List.getElem_map, List.getElem_range, hspec j _ hgj, Option.getD_some, grant,
        (hmech _ (List.mem_of_getElem? hgj)).2.2.2, one_mul]
    · obtain ⟨plds, q1, q2⟩ := Budget.Pld.C07_composition_is_of_the_granted_mechanisms pl (e := e) (d := d) (σ := σ) (pldMechs st)
        (fun m hm => (hmech m hm).1.imp_right .inl)
      have hplen : plds.length = new.length := by
        have := congrArg List.length q1
        simp only [List.length_map] at this
        omega
      have hget : ∀ j, j < new.length → specPld pl (pldSpecs st σ j) = plds[j]? := by
        intro j hj
        have hj2 : j < (pldMechs st).length := by rw [hmlen]; exact hj
        have hgj := List.getElem?_eq_getElem hj2
        have h := congrArg (fun l => l[j]?) q1
        simp only [List.getElem?_map, hgj, Option.map_some] at h
        have hj3 : j < plds.length := by omega
        rw [List.getElem?_eq_getElem hj3] at h ⊢
        simp only [Option.map_some, Option.some.injEq] at h
        rw [← h, hspec j _ hgj]
        obtain ⟨hh, -, -, hs1⟩ := hmech _ (List.mem_of_getElem? hgj)
        rcases hh with hh | hh <;> simp [specPld, grantedPld, hh, grant, hs1]
      rcases plds with _ | ⟨p, ps⟩
      · exact absurd (List.length_eq_zero_iff.mp hplen.symm) hnil
      dsimp only at q2
      have hdom : C.Dominates (ps.foldl pl.compose p) (Measure.pi fun i => val (g i) (κ i))
          (Measure.pi fun i => val' (g i) (κ i)) := by
        refine C.groups p ps g _ _ (fun i => by have := hg i; rw [← hplen] at this; simpa using this) ?_
        intro j q hq
        have hj : j < new.length := by
          rw [← hplen]; exact (List.getElem?_eq_some_iff.mp hq).1
        obtain ⟨q', g1, g2⟩ := (hcal j hj).dominated C
        rw [hget j hj, hq] at g1
        cases g1
        have f1 : (fun i : {i // g i = j} => val (g i.1) (κ i.1)) = fun i => val j (κ i.1) := by funext i; rw [i.2]
        have f2 : (fun i : {i // g i = j} => val' (g i.1) (κ i.1)) = fun i => val' j (κ i.1) := by funext i; rw [i.2]
        rw [f1, f2]
        exact g2 _ (hinj' j)
      have hdpos : (0 : ℝ) < d := by exact_mod_cast lt_of_le_of_ne hd0 (Ne.symm hz)
      refine (C.sound _ _ _ hdom d hdpos hd1R).mono ?_ le_rfl
      unfold minimumNoiseStd at hσ
      rw [if_neg hdpos.ne'] at hσ
      have := (Budget.Pld.C06_search_sound hσ).1
      simpa [composedEps, q2] using this

/-! ### All numbers of all calls -/

theorem runs_prob {lib : Library} {s : Specs} {cs : List (Call R K)} {bs : List Built} {L L' : List (List (Candidate K))}
    {val val' : ℕ → K → Measure ℝ} (h : Runs lib s cs bs L L' val val') (j : ℕ) (k : K) (l : ℕ × ℕ) :
    IsProbabilityMeasure (numberLaw (L.getD j []) k l) ∧ IsProbabilityMeasure (numberLaw (L'.getD j []) k l) := by
  rw [h.number, h.number']
  split_ifs with hc
  · have := h.calibrated _ (specsAt_mem hc.2.1)
    exact ⟨this.prob k, this.swap.prob k⟩
  · exact ⟨inferInstance, inferInstance⟩

theorem runs_indist {lib : Library} {s : Specs} {cs : List (Call R K)} {bs : List Built} {L L' : List (List (Candidate K))}
    {val val' : ℕ → K → Measure ℝ} (h : Runs lib s cs bs L L' val val') {n : ℕ} (hn : bs.flatMap Built.specs = List.range' 0 n)
    {e d : ℝ} (hd : 0 ≤ d) (hp : SpecsPrivate K e d n s) (U : Finset (ℕ × K)) (S : Finset (ℕ × ℕ)) :
    Indist e d (observedLaw lib U S L) (observedLaw lib U S L') ∧ Indist e d (observedLaw lib U S L') (observedLaw lib U S L) ∧
      IsProbabilityMeasure (observedLaw lib U S L) ∧ IsProbabilityMeasure (observedLaw lib U S L') := by
  have hnd : (bs.flatMap Built.specs).Nodup := by rw [hn]; exact List.nodup_range'
  have h1 : ∀ u : U, IsProbabilityMeasure (decisionLaw lib (L.getD u.1.1 []) u.1.2) := fun u => (h.decision _ _).2
  have h2 : ∀ i : U × S, IsProbabilityMeasure (numberLaw (L.getD i.1.1.1 []) i.1.1.2 i.2.1) := fun i => (runs_prob h _ _ _).1
  have h2' : ∀ i : U × S, IsProbabilityMeasure (numberLaw (L'.getD i.1.1.1 []) i.1.1.2 i.2.1) := fun i => (runs_prob h _ _ _).2
  have hdec : (fun u : U => decisionLaw lib (L.getD u.1.1 []) u.1.2) = fun u : U => decisionLaw lib (L'.getD u.1.1 []) u.1.2 :=
    funext fun u => (h.decision _ _).1
  let N : U × S → Prop := fun i => i.2.1.2 = 0 ∧ i.2.1.1 ∈ specsAt bs i.1.1.1 ∧ i.1.1.2 ∈ publicAt cs i.1.1.1
  have hN : ∀ i : U × S, N i → i.2.1.1 ∈ List.range' 0 n := fun i hi => hn ▸ specsAt_mem hi.2.1
  have hcal : ∀ m < n, Calibrated (s m) (val m) (val' m) := fun m hm =>
    h.calibrated m (by rw [hn]; exact List.mem_range'_1.mpr ⟨Nat.zero_le _, by omega⟩)
  have hnum : ∀ v v' : ℕ → K → Measure ℝ, (∀ m < n, Calibrated (s m) (v m) (v' m)) → ∀ M M' : List (List (Candidate K)),
      (∀ i : U × S, IsProbabilityMeasure (numberLaw (M.getD i.1.1.1 []) i.1.1.2 i.2.1)) →
      (∀ i : U × S, IsProbabilityMeasure (numberLaw (M'.getD i.1.1.1 []) i.1.1.2 i.2.1)) →
      (∀ j k l, numberLaw (M.getD j []) k l
        = if l.2 = 0 ∧ l.1 ∈ specsAt bs j ∧ k ∈ publicAt cs j then v l.1 k else Measure.dirac 0) →
      (∀ j k l, numberLaw (M'.getD j []) k l
        = if l.2 = 0 ∧ l.1 ∈ specsAt bs j ∧ k ∈ publicAt cs j then v' l.1 k else Measure.dirac 0) →
      Indist e d (Measure.pi fun i : U × S => numberLaw (M.getD i.1.1.1 []) i.1.1.2 i.2.1)
        (Measure.pi fun i : U × S => numberLaw (M'.getD i.1.1.1 []) i.1.1.2 i.2.1) := by
    intro v v' hv M M' hM hM' g1 g2
    have split := Indist.split N (e₁ := e) (d₁ := d) (e₂ := 0) (d₂ := 0)
      (μ := fun i : U × S => numberLaw (M.getD i.1.1.1 []) i.1.1.2 i.2.1)
      (ν := fun i : U × S => numberLaw (M'.getD i.1.1.1 []) i.1.1.2 i.2.1) (by
        have f1 : (fun i : {i // N i} => numberLaw (M.getD i.1.1.1.1 []) i.1.1.1.2 i.1.2.1)
            = fun i => v i.1.2.1.1 i.1.1.1.2 := by
          funext i; rw [g1, if_pos i.2]
        have f2 : (fun i : {i // N i} => numberLaw (M'.getD i.1.1.1.1 []) i.1.1.1.2 i.1.2.1)
            = fun i => v' i.1.2.1.1 i.1.1.1.2 := by
          funext i; rw [g2, if_pos i.2]
        rw [f1, f2]
        refine hp (fun i : {i // N i} => i.1.2.1.1) (fun i => i.1.1.1.2) ?_ ?_ v v' hv
        · intro i
          have := List.mem_range'_1.mp (hN i.1 i.2)
          omega
        · rintro ⟨⟨⟨⟨j, k⟩, hu⟩, ⟨⟨a, b⟩, hS⟩⟩, q1, q2, q3⟩ ⟨⟨⟨⟨j', k'⟩, hu'⟩, ⟨⟨a', b'⟩, hS'⟩⟩, q1', q2', q3'⟩ hab
          simp only [Prod.mk.injEq] at hab
          obtain ⟨rfl, rfl⟩ := hab
          dsimp only at q1 q1' q2 q2'
          subst q1 q1'
          obtain rfl := specsAt_unique hnd q2 q2'
          rfl) (by
        have f : (fun i : {i // ¬ N i} => numberLaw (M.getD i.1.1.1.1 []) i.1.1.1.2 i.1.2.1)
            = fun i : {i // ¬ N i} => numberLaw (M'.getD i.1.1.1.1 []) i.1.1.1.2 i.1.2.1 := by
          funext i; rw [g1, g2, if_neg i.2, if_neg i.2]
        rw [f]; exact Indist.refl _) hd le_rfl
    simpa using split
  have hind : ∀ M M' : List (List (Candidate K)), (∀ u : U, IsProbabilityMeasure (decisionLaw lib (M.getD u.1.1 []) u.1.2)) →
      ((fun u : U => decisionLaw lib (M.getD u.1.1 []) u.1.2) = fun u : U => decisionLaw lib (M'.getD u.1.1 []) u.1.2) →
      (∀ i : U × S, IsProbabilityMeasure (numberLaw (M.getD i.1.1.1 []) i.1.1.2 i.2.1)) →
      (∀ i : U × S, IsProbabilityMeasure (numberLaw (M'.getD i.1.1.1 []) i.1.1.2 i.2.1)) →
      Indist e d (Measure.pi fun i : U × S => numberLaw (M.getD i.1.1.1 []) i.1.1.2 i.2.1)
        (Measure.pi fun i : U × S => numberLaw (M'.getD i.1.1.1 []) i.1.1.2 i.2.1) →
      Indist e d (observedLaw lib U S M) (observedLaw lib U S M') := by
    intro M M' hM hMM hM2 hM2' hI
    unfold observedLaw
    rw [← hMM]
    have := ((Indist.refl (Measure.pi fun u : U => decisionLaw lib (M.getD u.1.1 []) u.1.2)).prod hI le_rfl hd).map measurable_hide
    simpa using this
  have h1' : ∀ u : U, IsProbabilityMeasure (decisionLaw lib (L'.getD u.1.1 []) u.1.2) := fun u => by
    rw [← (h.decision _ _).1]; exact (h.decision _ _).2
  refine ⟨hind L L' h1 hdec h2 h2' (hnum val val' hcal L L' h2 h2' h.number h.number'),
    hind L' L h1' hdec.symm h2' h2 (hnum val' val (fun m hm => (hcal m hm).swap) L' L h2' h2 h.number' h.number), ?_, ?_⟩
  · unfold observedLaw
    exact Measure.isProbabilityMeasure_map measurable_hide.aemeasurable
  · unfold observedLaw
    exact Measure.isProbabilityMeasure_map measurable_hide.aemeasurable

/-- What a pipeline with a PLD accountant requests. -/
theorem pld_plan {fmt : ℚ → String} {d : ℚ} {cs : List (Call R K)} (hs : ∀ c ∈ cs, c.Supported)
    (hchk : ∀ c ∈ cs, c.pldCheck = .ok ()) (hd : (∃ c ∈ cs, c.IsGaussian) → 0 < d) {bs ops}
    (hp : planCalls fmt [] cs = .ok (bs, ops)) :
    (∀ op ∈ ops, PlainAny op) ∧ ∃ new : List Request,
      ops.filterMap reqOf = new.map (fun r => (toMechType r.mechanism, (1 : ℤ))) ∧
      bs.flatMap Built.specs = List.range' 0 new.length ∧ (∀ x ∈ cs.zip bs, x.2.Requested x.1.kind new) ∧
      (∀ r ∈ new, r.mechanism ≠ .laplace → 0 < d) ∧ ∀ r ∈ new, r.mechanism = .laplace ∨ r.mechanism = .gaussian := by
  obtain ⟨hplain, new, hreq, hspecs, hrq, hnd⟩ := planCalls_spec hs hp
  rw [List.length_nil] at hspecs
  have hgauss : ∀ r ∈ new, r.mechanism ≠ .laplace → 0 < d := by
    intro r hr hne
    obtain ⟨c, hcm, hn⟩ := hnd r hr hne
    refine hd ⟨c, hcm, ?_⟩
    cases c with
    | select p key => have := hchk _ hcm; rw [pldCheck_select] at this; cases this
    | aggregate p pub key value =>
      obtain ⟨⟨ps, rfl⟩, -⟩ := pldCheck_spec (hchk _ hcm)
      rcases hn with hn | hn
      · exact hn
      · cases hn
  have hparts : ∀ b ∈ bs, ∃ c, (c, b) ∈ cs.zip bs ∧ (∀ part ∈ b.parts, PlainPart part) ∧ b.selection = none :=
    planCalls_plain hs hchk hp
  have hlg : ∀ r ∈ new, r.mechanism = .laplace ∨ r.mechanism = .gaussian := by
    intro r hr
    obtain ⟨i, hi⟩ := List.mem_iff_getElem?.mp hr
    have hin : i ∈ bs.flatMap Built.specs := by
      rw [hspecs]
      exact List.mem_range'_1.mpr ⟨Nat.zero_le _, by have := (List.getElem?_eq_some_iff.mp hi).1; omega⟩
    obtain ⟨b, hb, hib⟩ := List.mem_flatMap.mp hin
    obtain ⟨c, hz, hpl, hsel⟩ := hparts b hb
    rw [Built.specs, hsel, Option.toList_none, List.append_nil] at hib
    obtain ⟨part, hpart, hip⟩ := List.mem_flatMap.mp hib
    obtain ⟨w, hw⟩ := (hrq (c, b) hz).parts part hpart i hip
    rw [List.nil_append, hi, (hpl part hpart).mechanism] at hw
    cases hw
    dsimp only
    cases (c.kind) with
    | laplace => exact .inl rfl
    | gaussian => exact .inr rfl
  exact ⟨hplain, new, hreq, hspecs, hrq, hgauss, hlg⟩

/-- **C67.**  A pipeline of any `aggregate` calls that the engine accepts with a PLD accountant with total budget `(e, d)` is
`(e, d)`-differentially private, if `dp_accounting` keeps its promises: with Laplace or Gaussian noise, and with the noise the
accountant found.  The random choices `ω` of contribution bounding and of the runner have any distribution `μ`.  What is observed
are the partitions among any finite set `U` of (call, partition), with their noisy numbers. -/
theorem C67_pld_pipeline_is_differentially_private (fmt : ℚ → String) (lib : Library) {pl : PldLib} (C : PldContract pl)
    {e d : ℚ} {num ws s0} (h0 : Budget.init e d num ws = .ok s0) (cs : List (Call R K)) (hs : ∀ c ∈ cs, c.Supported)
    (hchk : ∀ c ∈ cs, c.pldCheck = .ok ()) (hd : (∃ c ∈ cs, c.IsGaussian) → 0 < d)
    {bs ops} (hp : planCalls fmt [] cs = .ok (bs, ops)) {fuel : ℕ} {s : Specs}
    (hc : pldCompute pl fuel (pldRun s0 ops).1 = .ok s)
    {Ω : Type} [MeasurableSpace Ω] (μ : Measure Ω) [IsProbabilityMeasure μ] (env : Ω → ℕ → Env K)
    (henv : ∀ ω j, (env ω j).Lawful) (pid : R → P) (data : List R) (u : P) (hu : ∀ c ∈ cs, c.Promised pid data u) :
    ∃ L L' : Ω → List (List (Candidate K)),
      (∀ ω, evalCalls lib.sigma s (env ω) pid data 0 cs bs = .ok (L ω) ∧
        evalCalls lib.sigma s (env ω) pid (removeId pid u data) 0 cs bs = .ok (L' ω)) ∧
      ∀ (U : Finset (ℕ × K)) (S : Finset (ℕ × ℕ)),
        (∀ ω, IsProbabilityMeasure (observedLaw lib U S (L ω)) ∧ IsProbabilityMeasure (observedLaw lib U S (L' ω))) ∧
        ∀ A, MeasurableSet A →
          ∫⁻ ω, observedLaw lib U S (L ω) A ∂μ
            ≤ ENNReal.ofReal (Real.exp e) * ∫⁻ ω, observedLaw lib U S (L' ω) A ∂μ + ENNReal.ofReal d ∧
          ∫⁻ ω, observedLaw lib U S (L' ω) A ∂μ
            ≤ ENNReal.ofReal (Real.exp e) * ∫⁻ ω, observedLaw lib U S (L ω) A ∂μ + ENNReal.ofReal d := by
  obtain ⟨he, hd0, hd1, -, -⟩ := Budget.init_facts h0
  obtain ⟨hplain, new, hreq, hspecs, hrq, hgauss, hlg⟩ := pld_plan hs hchk hd hp
  have hready := ready_run h0 hplain (planCalls_unit cs hp) hreq hgauss
  obtain ⟨hstd, hpriv⟩ := pld_specs (K := K) C he hd0 hd1 hready hc hlg (fun hz r hr => by
    by_contra hne
    have := hgauss r hr hne
    rw [hz] at this; exact lt_irrefl _ this)
  have hbo : ∀ x ∈ cs.zip bs, ∀ part ∈ x.2.parts, ∀ i ∈ part.specs, StdOk s i (part.mechanism x.1.kind) := by
    intro x hx part hpart i hi
    obtain ⟨w, hw⟩ := (hrq x hx).parts part hpart i hi
    exact hstd i _ hw
  have hnd' : (bs.flatMap Built.specs).Nodup := by rw [hspecs]; exact List.nodup_range'
  have key := fun ω => pld_calls lib (env ω) (henv ω) pid data u hs hchk hu 0 hp hbo hnd'
  choose L L' a1 a2 val val' hR using key
  have hd0R : (0 : ℝ) ≤ d := by exact_mod_cast hd0
  have hI := fun ω => runs_indist (hR ω) hspecs hd0R hpriv
  refine ⟨L, L', fun ω => ⟨a1 ω, a2 ω⟩, fun U S => ⟨fun ω => (hI ω U S).2.2, fun A hA => ?_⟩⟩
  have fin : ∀ f g : Ω → ENNReal, (∀ ω, f ω ≤ ENNReal.ofReal (Real.exp e) * g ω + ENNReal.ofReal d) →
      ∫⁻ ω, f ω ∂μ ≤ ENNReal.ofReal (Real.exp e) * ∫⁻ ω, g ω ∂μ + ENNReal.ofReal d := by
    intro f g hfg
    refine (lintegral_mono hfg).trans ?_
    rw [lintegral_add_right _ measurable_const, lintegral_const_mul' _ _ ENNReal.ofReal_ne_top]
    simp
  exact ⟨fin _ _ fun ω => (hI ω U S).1 A hA, fin _ _ fun ω => (hI ω U S).2.1 A hA⟩

end PDP.EndToEnd
