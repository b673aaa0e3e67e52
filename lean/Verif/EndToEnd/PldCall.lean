import Verif.EndToEnd.PldNumbers

/-! # One call with a PLD accountant -/

set_option linter.unusedSectionVars false

namespace PDP.EndToEnd

open PDP PDP.Engine MeasureTheory
open PDP.Engine.Mechanism (Additive)
open PDP.Budget (State Op MechType)
open PDP.Approx (Indist)

variable {R P K : Type} [DecidableEq P] [DecidableEq K]

/-- Combiners with one number for each of their budgets. -/
def PlainPart : Part → Prop
  | .count _ | .privacyIdCount _ | .sum _ | .mean _ _ _ => True
  | _ => False

theorem pldCheck_spec {p : Params} {pub : Option (List K)} {key : R → K} {value : R → ℚ}
    (h : (Call.aggregate p pub key value).pldCheck = .ok ()) :
    (∃ ps, pub = some ps) ∧ ∀ m ∈ p.metrics, m = .count ∨ m = .privacyIdCount ∨ m = .sum ∨ m = .mean := by
  unfold Call.pldCheck Validation.checkAccountant at h
  simp only [Bool.false_eq_true, if_false] at h
  split_ifs at h with h1 h2
  refine ⟨?_, ?_⟩
  · cases pub with
    | none => simp at h1
    | some ps => exact ⟨ps, rfl⟩
  · intro m hm
    by_contra hc
    apply h2
    rw [List.any_eq_true]
    refine ⟨m, hm, ?_⟩
    simpa using hc

theorem pldCheck_select {p : Private.SelectParams} {key : R → K} : (Call.select p key).pldCheck = .error .notImplemented := rfl

theorem parts_plain {fmt : ℚ → String} {p : Params} {rs rs' : List Request} {parts : List Part}
    (hm : ∀ m ∈ p.metrics, m = .count ∨ m = .privacyIdCount ∨ m = .sum ∨ m = .mean) (ht : p.postThresholding = false)
    (h : createCompound fmt p rs = (.ok parts, rs')) : ∀ part ∈ parts, PlainPart part := by
  have hvar : Metric.variance ∉ p.metrics := fun h => by have := hm _ h; simp at this
  have hv : vectorPart p (privacyIdPart p (scalarParts p rs).2).2 = ([], (privacyIdPart p (scalarParts p rs).2).2) := by
    unfold vectorPart
    rw [if_neg]
    intro h
    have := hm _ h
    simp at this
  have hq : ∀ r, quantilePart p r = ([], r) := by
    intro r
    unfold quantilePart
    have : p.metrics.filterMap Metric.percentile? = [] := by
      rw [List.filterMap_eq_nil_iff]
      intro m h
      rcases hm m h with rfl | rfl | rfl | rfl <;> rfl
    rw [this]; simp
  unfold createCompound at h
  simp only [hv, hq, List.append_nil] at h
  split at h
  · simp only [Prod.mk.injEq, Except.ok.injEq] at h
    obtain ⟨rfl, -⟩ := h
    intro part hp
    rcases List.mem_append.mp hp with hp | hp
    · unfold scalarParts at hp
      rw [if_neg hvar] at hp
      by_cases h2 : Metric.mean ∈ p.metrics
      · rw [if_pos h2] at hp
        simp only [requestBudget, List.mem_singleton] at hp
        subst hp; trivial
      · rw [if_neg h2] at hp
        by_cases h3 : Metric.count ∈ p.metrics <;> by_cases h4 : Metric.sum ∈ p.metrics <;>
          simp [h3, h4, requestBudget] at hp
        · rcases hp with rfl | rfl <;> trivial
        · subst hp; trivial
        · subst hp; trivial
    · unfold privacyIdPart at hp
      by_cases h1 : Metric.privacyIdCount ∈ p.metrics
      · rw [if_pos h1, if_neg (by rw [ht]; simp)] at hp
        simp only [requestBudget, List.mem_singleton] at hp
        subst hp; trivial
      · rw [if_neg h1] at hp; simp at hp
  · simp at h

theorem PlainPart.share {part : Part} (h : PlainPart part) : share part = 1 := by
  cases part <;> first | rfl | exact h.elim

theorem PlainPart.mechanism {part : Part} (h : PlainPart part) (kind : NoiseKind) :
    part.mechanism kind = kind.mechanism := by
  cases part <;> first | rfl | exact h.elim

theorem plain_labels (sigma : ℝ → ℝ → ℝ → ℝ) (p : Params) (parts : List Part) (h : ∀ part ∈ parts, PlainPart part)
    (hok : ∀ part ∈ parts, PartOkAny p part) :
    ((flat sigma p parts).map fun x => (x.2.spec, x.2.comp)) = (parts.flatMap Part.specs).map fun i => (i, 0) := by
  induction parts with
  | nil => rfl
  | cons part parts ih =>
    have hp := h part (by simp)
    have hpo : PartOk p part := by
      rcases hok part (by simp) with h | ⟨j, rfl⟩ | ⟨j, ps, rfl⟩
      · exact h
      · exact hp.elim
      · exact hp.elim
    have h1 := numbers_specs sigma p part hpo
    have h2 : ((view sigma p part).numbers.map fun n => (n.spec, n.comp)) = part.specs.map fun s => (s, 0) := by
      rw [h1]
      cases part <;> first | rfl | exact hp.elim
    have := ih (fun x hx => h x (by simp [hx])) (fun x hx => hok x (by simp [hx]))
    simp only [flat, List.map_append, List.map_map, List.flatMap_cons]
    rw [← this, ← h2]
    rfl

/-- The specs published by the accountant: noise of positive standard deviation. -/
def StdOk (s : Specs) (i : ℕ) (m : Engine.Mechanism) : Prop :=
  ∃ t : ℝ, 0 < t ∧ s i = ⟨toMechType m, some t, none, none⟩

/-- The public partitions of a call. -/
def Call.public : Call R K → List K
  | .aggregate _ pub _ _ => pub.getD []
  | .select _ _ => []

/-- **One call.** -/
theorem public_call (lib : Library) {s : Specs} {p : Params} {pub : Option (List K)} (hs : SupportedAggregate p pub)
    {fmt : ℚ → String} {rs rs' : List Request} {b : Built} {key : R → K} {value : R → ℚ}
    (hchk : (Call.aggregate p pub key value).pldCheck = .ok ())
    (hb : build fmt rs (.aggregate p pub key value) = (.ok b, rs'))
    (hstd : ∀ part ∈ b.parts, ∀ i ∈ part.specs, StdOk s i (part.mechanism p.noiseKind))
    (hnd : (b.parts.flatMap Part.specs).Nodup)
    (env : Env K) (henv : env.Lawful) (pid : R → P) (data : List R) (u : P)
    (hu : (Call.aggregate p pub key value).Promised pid data u) :
    ∃ c c', evalCall lib.sigma s env pid b data (.aggregate p pub key value) = .ok c ∧
      evalCall lib.sigma s env pid b (removeId pid u data) (.aggregate p pub key value) = .ok c' ∧
      (∀ k, decisionLaw lib c k = decisionLaw lib c' k ∧ IsProbabilityMeasure (decisionLaw lib c k)) ∧
      ∃ val val' : ℕ → K → Measure ℝ,
        (∀ k l, numberLaw c k l = if l.2 = 0 ∧ l.1 ∈ b.specs ∧ k ∈ (Call.aggregate p pub key value).public then val l.1 k
          else Measure.dirac 0) ∧
        (∀ k l, numberLaw c' k l = if l.2 = 0 ∧ l.1 ∈ b.specs ∧ k ∈ (Call.aggregate p pub key value).public then val' l.1 k
          else Measure.dirac 0) ∧
        ∀ i ∈ b.specs, Calibrated (s i) (val i) (val' i) := by
  obtain ⟨⟨ps, rfl⟩, hm⟩ := pldCheck_spec hchk
  obtain ⟨hu1, hu2⟩ := hu
  obtain ⟨⟨rs1, hcc⟩, hsel⟩ := build_aggregate hb
  obtain ⟨hok, -⟩ := parts_ok_any hs.any hcc
  have hpt : p.postThresholding = false := by
    by_contra h
    have := (hs.thresholding (by simpa using h)).1
    cases this
  have hplain := parts_plain hm hpt hcc
  have hsp : selectsPrivately p (some ps) = false := by simp [selectsPrivately]
  have hselN : b.selection = none := by
    rw [hsp] at hsel
    simpa using hsel
  have hspecs : b.specs = b.parts.flatMap Part.specs := by simp [Built.specs, hselN]
  have hgate : ∀ acc, gateOf lib.sigma s p b acc = .ok .always := by
    intro acc
    unfold gateOf
    rw [hselN, hpt]; rfl
  set col := extract pid key value data with hcol
  obtain ⟨a, a', -, ha, ha', -⟩ := accumulators_change env.backend henv.backend henv.keyLocal p hs.bounds
    (Combiner.compound (combinersOf lib.sigma p b.parts)).sampling (Combiner.compound (combinersOf lib.sigma p b.parts)).create
    (some ps) col u hu1
  set comb := env.combine (Combiner.compound (combinersOf lib.sigma p b.parts)).merge with hcomb
  have hlc : LawfulCombine (Combiner.compound (combinersOf lib.sigma p b.parts)).merge comb := henv.combine _
  have hC := hlc a
  have hC' := hlc a'
  have hpa : ∀ (c : List (P × K × ℚ)) (x), accumulators env.backend p (Combiner.compound (combinersOf lib.sigma p b.parts)).sampling
      (Combiner.compound (combinersOf lib.sigma p b.parts)).create (some ps) c = .ok x →
      partitionAccumulators env.backend (combinersOf lib.sigma p b.parts) comb (fun _ _ => true) p (some ps) c = .ok (comb x) := by
    intro c x hx
    unfold partitionAccumulators
    rw [hx]
    simp only [hsp]; rfl
  have hkeys : ∀ (c : List (P × K × ℚ)) (x), (∀ r ∈ c, r ∈ col) →
      accumulators env.backend p (Combiner.compound (combinersOf lib.sigma p b.parts)).sampling
        (Combiner.compound (combinersOf lib.sigma p b.parts)).create (some ps) c = .ok x →
      ∀ k, k ∈ (comb x).map Prod.fst ↔ k ∈ ps := by
    intro c x hc hx
    obtain ⟨out, en, h1, h2, h3, -⟩ := C23_public_partitions_are_the_output env.backend henv.backend p hs.bounds
      (combinersOf lib.sigma p b.parts) comb hlc (fun _ _ => true) ps c (fun h r hr => by
        obtain ⟨x, hx, rfl⟩ := List.mem_map.mp (hc r hr)
        exact hu2 h ps rfl x hx)
    rw [hpa c x hx] at h1
    cases h1
    exact h3
  have hk1 := hkeys col a (fun r hr => hr) ha
  have hk2 := hkeys (without u col) a' (fun r hr => (List.mem_filter.mp hr).1) ha'
  -- numbers
  have hnum : ∀ x ∈ flat lib.sigma p b.parts, ∃ m, x.2.mech (s x.2.spec) = .ok m ∧
      Calibrated (s x.2.spec)
        (fun k => noisy m ((partitionTotal (fun c : (Combiner.compound (combinersOf lib.sigma p b.parts)).Acc =>
          x.2.read c.2) a k : ℚ) : ℝ))
        (fun k => noisy m ((partitionTotal (fun c : (Combiner.compound (combinersOf lib.sigma p b.parts)).Acc =>
          x.2.read c.2) a' k : ℚ) : ℝ)) := by
    intro x hx
    obtain ⟨i, part, v, hv, h, n, h1, h2, h3, h4, h5, h6, h7⟩ := flat_mem lib.sigma p b.parts x hx
    have hpart : PartOk p part := by
      rcases hok part h1 with h | ⟨j, rfl⟩ | ⟨j, ps, rfl⟩
      · exact h
      · exact (hplain _ h1).elim
      · exact (hplain _ h1).elim
    have hns := (numbers_specs_any lib.sigma p part (hok part h1)).1
    rw [hv] at hns
    obtain ⟨hs1, hs2⟩ := hns n h2
    obtain ⟨t, ht, hst⟩ := hstd part h1 n.spec hs1
    rw [hs2] at hst
    have hcov := number_covered_any lib.sigma env.backend henv.backend henv.keyLocal p hs.bounds
      (combinersOf lib.sigma p b.parts) i part hpart v hv h n h2 (some ps) col u hu1 a a' ha ha'
    rw [(hplain part h1).share] at hcov
    obtain ⟨m, hm, hcal⟩ := covered_calibrated hcov t ht
    refine ⟨m, by rw [h6, h4, hst, hm], ?_⟩
    have hread : (fun c : (Combiner.compound (combinersOf lib.sigma p b.parts)).Acc => x.2.read c.2)
        = fun acc => n.read (Combiner.readAs v.comb i h acc) := funext h7
    rw [hread, h4, hst]
    exact hcal _ _ fun k => rfl
  have hcand : ∀ e : K × (Combiner.compound (combinersOf lib.sigma p b.parts)).Acc,
      candidate lib.sigma s p b e = .ok ⟨e.1, gateFn lib.sigma s p b e.2, numbersOf lib.sigma s p b.parts e⟩ := by
    intro e
    unfold candidate gateFn
    rw [hgate, evalParts_eq lib.sigma s p e.1 b.parts e.2.2 fun x hx => (hnum x hx).imp fun m h => h.1]
    rfl
  have hlab := plain_labels lib.sigma p b.parts hplain hok
  have hlabn : ((flat lib.sigma p b.parts).map fun x => (x.2.spec, x.2.comp)).Nodup := by
    rw [hlab]
    exact hnd.map fun a b hab => by simpa using hab
  have hmem : ∀ l, l ∈ (flat lib.sigma p b.parts).map (fun x => (x.2.spec, x.2.comp))
      ↔ l.2 = 0 ∧ l.1 ∈ b.specs := by
    intro l
    rw [hlab, hspecs]
    constructor
    · intro h
      obtain ⟨i, hi, rfl⟩ := List.mem_map.mp h
      exact ⟨rfl, hi⟩
    · rintro ⟨h1, h2⟩
      exact List.mem_map.mpr ⟨l.1, h2, Prod.ext rfl h1.symm⟩
  have hnl : ∀ x : List (K × (Combiner.compound (combinersOf lib.sigma p b.parts)).Acc),
      IsCombine (Combiner.compound (combinersOf lib.sigma p b.parts)).merge x (comb x) →
      (∀ k, k ∈ (comb x).map Prod.fst ↔ k ∈ ps) → ∀ k l,
      numberLaw ((comb x).map fun e => (⟨e.1, gateFn lib.sigma s p b e.2, numbersOf lib.sigma s p b.parts e⟩ : Candidate K)) k l
        = if l.2 = 0 ∧ l.1 ∈ b.specs ∧ k ∈ ps then valOf lib.sigma s p b.parts x (l.1, 0) k else Measure.dirac 0 := by
    intro x hCx hkx k l
    by_cases hk : k ∈ ps
    · have hf : (((comb x).map fun e => (⟨e.1, gateFn lib.sigma s p b e.2, numbersOf lib.sigma s p b.parts e⟩ :
          Candidate K)).find? fun c => c.key = k).isSome := by
        obtain ⟨e, he, hek⟩ := List.mem_map.mp ((hkx k).mpr hk)
        rw [List.find?_isSome]
        exact ⟨_, List.mem_map_of_mem he, by simpa using hek⟩
      rw [numberLaw_eq lib.sigma s p b.parts hCx (fun e => gateFn lib.sigma s p b e.2) k l hf]
      by_cases hl : l.2 = 0 ∧ l.1 ∈ b.specs
      · rw [if_pos ((hmem l).mpr hl), if_pos ⟨hl.1, hl.2, hk⟩, show l = (l.1, 0) from Prod.ext rfl hl.1]
      · rw [if_neg (fun h => hl ((hmem l).mp h)), if_neg (fun h => hl ⟨h.1, h.2.1⟩)]
    · rw [if_neg (fun h => hk h.2.2)]
      unfold numberLaw
      have : ((comb x).map fun e => (⟨e.1, gateFn lib.sigma s p b e.2, numbersOf lib.sigma s p b.parts e⟩ :
          Candidate K)).find? (fun c => c.key = k) = none := by
        rw [List.find?_eq_none]
        intro c hc hck
        obtain ⟨e, he, rfl⟩ := List.mem_map.mp hc
        exact hk ((hkx k).mp (List.mem_map.mpr ⟨e, he, by simpa using hck⟩))
      rw [this]
  refine ⟨(comb a).map fun e => ⟨e.1, gateFn lib.sigma s p b e.2, numbersOf lib.sigma s p b.parts e⟩,
    (comb a').map fun e => ⟨e.1, gateFn lib.sigma s p b e.2, numbersOf lib.sigma s p b.parts e⟩, ?_, ?_, ?_,
    fun i => valOf lib.sigma s p b.parts a (i, 0), fun i => valOf lib.sigma s p b.parts a' (i, 0), hnl a hC hk1,
    hnl a' hC' hk2, ?_⟩
  · simp only [evalCall]
    rw [← hcol, ← hcomb, hpa _ _ ha]
    exact mapM_ok' _ _ _ fun e _ => hcand e
  · simp only [evalCall]
    rw [extract_removeId, ← hcol, ← hcomb, hpa _ _ ha']
    exact mapM_ok' _ _ _ fun e _ => hcand e
  · intro k
    obtain ⟨d1, d2⟩ := decisionLaw_map lib (comb a) hC.nodup (fun e => gateFn lib.sigma s p b e.2)
      (numbersOf lib.sigma s p b.parts) k
    obtain ⟨d1', d2'⟩ := decisionLaw_map lib (comb a') hC'.nodup (fun e => gateFn lib.sigma s p b e.2)
      (numbersOf lib.sigma s p b.parts) k
    have hg : ∀ acc, gateFn lib.sigma s p b acc = .always := fun acc => by simp only [gateFn, hgate]
    by_cases hk : k ∈ ps
    · obtain ⟨e, he, hek⟩ := List.mem_map.mp ((hk1 k).mpr hk)
      obtain ⟨e', he', hek'⟩ := List.mem_map.mp ((hk2 k).mpr hk)
      rw [d1 e he hek, d1' e' he' hek', hg, hg]
      exact ⟨rfl, by unfold Gate.law; infer_instance⟩
    · rw [d2 (fun h => hk ((hk1 k).mp h)), d2' (fun h => hk ((hk2 k).mp h))]
      exact ⟨rfl, inferInstance⟩
  · intro i hi
    rw [hspecs] at hi
    have : (i, 0) ∈ (flat lib.sigma p b.parts).map fun x => (x.2.spec, x.2.comp) := by
      rw [hlab]; exact List.mem_map_of_mem hi
    obtain ⟨x, hx, hxi⟩ := List.mem_map.mp this
    simp only [Prod.mk.injEq] at hxi
    obtain ⟨m, hm, hcal⟩ := hnum x hx
    have hpick := pick_label hlabn x hx
    rw [hxi.1, hxi.2] at hpick
    have hget : getMech s x.2.mech x.2.spec = m := by simp only [getMech, hm]
    have hv : ∀ acc : List (K × (Combiner.compound (combinersOf lib.sigma p b.parts)).Acc), valOf lib.sigma s p b.parts acc (i, 0) = fun k => noisy m
        ((partitionTotal (fun c : (Combiner.compound (combinersOf lib.sigma p b.parts)).Acc => x.2.read c.2) acc k : ℚ) : ℝ) := by
      intro acc
      funext k
      unfold valOf
      rw [hpick]
      simp only [hget]
    dsimp only
    rw [hv a, hv a', ← hxi.1]
    exact hcal

end PDP.EndToEnd
