import Verif.EndToEnd.CallPair

/-! # One `aggregate` call on neighbouring datasets -/

set_option linter.unusedSectionVars false

namespace PDP.EndToEnd

open PDP PDP.Engine MeasureTheory
open PDP.Engine.Mechanism (Additive createThresholding computed)
open PDP.Engine.AddNoise (specOf)
open PDP.Budget (State Op MechType)
open PDP.Approx (Indist)

variable {R P K : Type} [DecidableEq P] [DecidableEq K]

/-- The budgets of a call as they are published. -/
structure BuiltOk (s : Specs) (ε δ : ℕ → ℝ) (kind : NoiseKind) (b : Built) : Prop where
  parts : ∀ part ∈ b.parts, ∀ i ∈ part.specs, SpecOk s ε δ i (part.mechanism kind)
  selection : ∀ i, b.selection = some i → SpecOk s ε δ i .generic
  nodup : (b.parts.flatMap Part.specs).Nodup

theorem extract_removeId (pid : R → P) (key : R → K) (value : R → ℚ) (u : P) (data : List R) :
    extract pid key value (removeId pid u data) = without u (extract pid key value data) := by
  unfold extract removeId without
  rw [List.filter_map]; rfl

/-- The decision of a partition (when there is no exception). -/
noncomputable def gateFn (σ : ℝ → ℝ → ℝ → ℝ) (s : Specs) (p : Params) (b : Built)
    (acc : (Combiner.compound (combinersOf σ p b.parts)).Acc) : Gate :=
  match gateOf σ s p b acc with
  | .ok g => g
  | .error _ => .always

theorem mem_thSpecs {parts : List Part} {i : ℕ} : i ∈ thSpecs parts ↔ Part.thresholding i ∈ parts := by
  unfold thSpecs
  rw [List.mem_flatMap]
  constructor
  · rintro ⟨part, h1, h2⟩
    cases part <;> simp at h2
    subst h2
    exact h1
  · intro h
    exact ⟨_, h, by simp⟩

theorem le_sum_of_mem {l : List ℕ} {f : ℕ → ℝ} (hf : ∀ j ∈ l, 0 ≤ f j) {i : ℕ} (hi : i ∈ l) : f i ≤ (l.map f).sum :=
  List.single_le_sum (by
    intro x hx
    obtain ⟨j, hj, rfl⟩ := List.mem_map.mp hx
    exact hf j hj) _ (List.mem_map_of_mem hi)

theorem maxRows_ok {p : Params} (hp : p.BoundsValid) (hmc : p.maxContributions = none) :
    ∃ l0 m, 1 ≤ l0 ∧ 1 ≤ m ∧ p.maxPartitions = some l0 ∧ maxRowsPerId p = .ok m := by
  rcases hp with ⟨m, hm, q1, q2, q3⟩ | ⟨l0, linf, hl0, hl, q1, q2, q3⟩
  · rw [hmc] at q1; cases q1
  · refine ⟨l0, if p.boundsEnforced then linf else 1, hl0, by split <;> omega, q2, ?_⟩
    unfold maxRowsPerId
    rw [hmc, q3]
    cases p.boundsEnforced <;> rfl

theorem maxRows_one {p : Params} (h : p.boundsEnforced = false) : maxRowsPerId p = .ok 1 := by
  unfold maxRowsPerId
  rw [h]; rfl

theorem build_aggregate {fmt : ℚ → String} {rs rs' : List Request} {b : Built} {p : Params} {pub : Option (List K)}
    {key : R → K} {value : R → ℚ} (hb : build fmt rs (.aggregate p pub key value) = (.ok b, rs')) :
    (∃ rs1, createCompound fmt p rs = (.ok b.parts, rs1)) ∧ b.selection.isSome = selectsPrivately p pub := by
  simp only [build] at hb
  rcases hx : createCompound fmt p rs with ⟨r, rs1⟩
  rw [hx] at hb
  cases r with
  | error e => simp at hb
  | ok parts =>
    dsimp only at hb
    by_cases h : selectsPrivately p pub = true
    · rw [if_pos h] at hb
      simp only [Prod.mk.injEq, Except.ok.injEq] at hb
      obtain ⟨rfl, -⟩ := hb
      exact ⟨⟨rs1, rfl⟩, by simp [h]⟩
    · rw [if_neg h] at hb
      simp only [Prod.mk.injEq, Except.ok.injEq] at hb
      obtain ⟨rfl, -⟩ := hb
      exact ⟨⟨rs1, rfl⟩, by simpa using h⟩

/-- The decisions of a call of `aggregate`. -/
theorem aggregate_gate {lib : Library} (hlib : lib.Contract) {s : Specs} {ε δ : ℕ → ℝ} {p : Params} {pub : Option (List K)}
    (hs : SupportedAny p pub) {fmt : ℚ → String} {rs rs' : List Request} {b : Built} {key : R → K} {value : R → ℚ}
    (hb : build fmt rs (.aggregate p pub key value) = (.ok b, rs')) (hbo : BuiltOk s ε δ p.noiseKind b)
    (B : Backend) (hB : B.Lawful) (hK : B.KeyLocal) (col : List (P × K × ℚ)) (u : P)
    (hu : CallerKeepsBounds p u col) (hf : p.publicFiltered = true → ∀ ps, pub = some ps → ∀ r ∈ col, r.2.1 ∈ ps)
    {comb} (hcomb : LawfulCombine (Combiner.compound (combinersOf lib.sigma p b.parts)).merge comb)
    {a a' : List (K × (Combiner.compound (combinersOf lib.sigma p b.parts)).Acc)}
    (ha : accumulators B p (Combiner.compound (combinersOf lib.sigma p b.parts)).sampling
      (Combiner.compound (combinersOf lib.sigma p b.parts)).create pub col = .ok a)
    (ha' : accumulators B p (Combiner.compound (combinersOf lib.sigma p b.parts)).sampling
      (Combiner.compound (combinersOf lib.sigma p b.parts)).create pub (without u col) = .ok a')
    (nums : K × (Combiner.compound (combinersOf lib.sigma p b.parts)).Acc → List (Noisy K)) :
    (∀ part ∈ b.parts, PartOkAny p part) ∧
    (∀ acc, ∃ g, gateOf lib.sigma s p b acc = .ok g) ∧
    partitionAccumulators B (combinersOf lib.sigma p b.parts) comb (fun _ _ => true) p pub col = .ok (comb a) ∧
    partitionAccumulators B (combinersOf lib.sigma p b.parts) comb (fun _ _ => true) p pub (without u col) = .ok (comb a') ∧
    ∃ ge gd, 0 ≤ gd ∧ ge ≤ ((thSpecs b.parts).map ε).sum + (b.selection.toList.map ε).sum ∧
      gd ≤ ((thSpecs b.parts).map δ).sum + (b.selection.toList.map δ).sum ∧
      GateClose lib ((comb a).map fun e => (⟨e.1, gateFn lib.sigma s p b e.2, nums e⟩ : Candidate K))
        ((comb a').map fun e => (⟨e.1, gateFn lib.sigma s p b e.2, nums e⟩ : Candidate K)) ge gd := by
  -- what was built
  obtain ⟨⟨rs1, hcc⟩, hsel⟩ := build_aggregate hb
  obtain ⟨hok, hth⟩ := parts_ok_any hs hcc
  have hth0 : ∀ f : ℕ → ℝ, (∀ i ∈ thSpecs b.parts, 0 ≤ f i) → 0 ≤ ((thSpecs b.parts).map f).sum := by
    intro f h
    apply List.sum_nonneg
    intro x hx
    obtain ⟨i, hi, rfl⟩ := List.mem_map.mp hx
    exact h i hi
  have hthok : ∀ i ∈ thSpecs b.parts, SpecOk s ε δ i ((Part.thresholding i).mechanism p.noiseKind) := fun i hi =>
    hbo.parts _ (mem_thSpecs.mp hi) i (by simp [Part.specs])
  have hε0 := hth0 ε fun i hi => (hthok i hi).eps.le
  have hδ0 := hth0 δ fun i hi => (hthok i hi).delta
  have hC := hcomb a
  have hC' := hcomb a'
  refine ⟨hok, ?_⟩
  -- accumulators after selection
  have hpa : ∀ (c : List (P × K × ℚ)) (x), accumulators B p (Combiner.compound (combinersOf lib.sigma p b.parts)).sampling
      (Combiner.compound (combinersOf lib.sigma p b.parts)).create pub c = .ok x →
      (selectsPrivately p pub = true → ∃ m, maxRowsPerId p = .ok m) →
      partitionAccumulators B (combinersOf lib.sigma p b.parts) comb (fun _ _ => true) p pub c = .ok (comb x) := by
    intro c x hx hm
    unfold partitionAccumulators
    rw [hx]
    by_cases h : selectsPrivately p pub = true
    · obtain ⟨m, hm⟩ := hm h
      simp only [h, if_true, hm]
      show Except.ok (selectPrivate (fun _ _ => true) m (comb x)) = .ok (comb x)
      unfold selectPrivate
      rw [List.filter_eq_self.mpr fun _ _ => rfl]
    · simp only [h]; rfl
  cases hpub : pub with
  | some ps =>
    subst hpub
    have hsp : selectsPrivately p (some ps) = false := by simp [selectsPrivately]
    have hselN : b.selection = none := by
      rw [hsp] at hsel
      simpa using hsel
    have hpt : p.postThresholding = false := by
      by_contra h
      have := (hs.thresholding (by simpa using h)).1
      cases this
    have hgate : ∀ acc, gateOf lib.sigma s p b acc = .ok .always := by
      intro acc
      unfold gateOf
      rw [hselN, hpt]; rfl
    have hkeys : ∀ (c : List (P × K × ℚ)) (x), (∀ r ∈ c, r ∈ col) →
        accumulators B p (Combiner.compound (combinersOf lib.sigma p b.parts)).sampling
          (Combiner.compound (combinersOf lib.sigma p b.parts)).create (some ps) c = .ok x →
        ∀ k, k ∈ (comb x).map Prod.fst ↔ k ∈ ps := by
      intro c x hc hx
      obtain ⟨out, en, h1, h2, h3, -⟩ := C23_public_partitions_are_the_output B hB p hs.bounds
        (combinersOf lib.sigma p b.parts) comb hcomb (fun _ _ => true) ps c (fun h r hr => hf h ps rfl r (hc r hr))
      rw [hpa c x hx (by rw [hsp]; simp)] at h1
      cases h1
      exact h3
    refine ⟨fun acc => ⟨_, hgate acc⟩, hpa _ _ ha (by rw [hsp]; simp), hpa _ _ ha' (by rw [hsp]; simp), 0, 0, le_rfl, ?_, ?_, ?_⟩
    · rw [hselN]; simpa using hε0
    · rw [hselN]; simpa using hδ0
    · refine gate_public hC.nodup hC'.nodup (fun k => ?_) (fun e => gateFn lib.sigma s p b e.2) nums (fun e => ?_)
      · rw [hkeys col a (fun r hr => hr) ha, hkeys _ a' (fun r hr => (List.mem_filter.mp hr).1) ha']
      · simp only [gateFn, hgate]
  | none =>
    subst hpub
    obtain ⟨hmc, hpf⟩ := hs.hidden rfl
    obtain ⟨l0, m, hl0, hm1, hl0p, hm⟩ := maxRows_ok hs.bounds hmc
    obtain ⟨E, hE1, hE2, hE3⟩ := count_facts B hB hK p hs.bounds hmc _ _ none col u hu ha ha'
    have hcr := entries_created B hB p hs.bounds _ _ col ha
    have hcr' := entries_created B hB p hs.bounds _ _ (without u col) ha'
    have hpa1 := hpa _ _ ha fun _ => ⟨m, hm⟩
    have hpa2 := hpa _ _ ha' fun _ => ⟨m, hm⟩
    cases hpt : p.postThresholding with
    | false =>
      have hsp : selectsPrivately p (none : Option (List K)) = true := by
        simp [selectsPrivately, hpt, hpf hpt]
      obtain ⟨i, hi⟩ : ∃ i, b.selection = some i := by
        rw [hsp] at hsel
        exact Option.isSome_iff_exists.mp hsel
      have hsi := hbo.selection i hi
      have hgate : ∀ acc, gateOf lib.sigma s p b acc
          = .ok (.select p.strategy (ε i) (δ i) l0 p.preThreshold (divideAndRoundUp (Combiner.rowCount acc) m)) := by
        intro acc
        unfold gateOf
        rw [hi, hm, hl0p]
        simp only [natArg, selectGate, hsi.eq, computed]
      have hδ := hsi.pos (by simp)
      obtain ⟨hF, hdp⟩ := selection_law hlib.selection p.strategy p.preThreshold hsi.eps hδ hl0
      refine ⟨fun acc => ⟨_, hgate acc⟩, hpa1, hpa2, ε i, δ i, hδ.le, ?_, ?_, ?_⟩
      · rw [hi]; simpa using hε0
      · rw [hi]; simpa using hδ0
      · have hlaw : ∀ (x : List (K × (Combiner.compound (combinersOf lib.sigma p b.parts)).Acc)),
            (∀ e ∈ x, ∃ vs, vs ≠ [] ∧ e.2 = (Combiner.compound (combinersOf lib.sigma p b.parts)).create vs) →
            IsCombine (Combiner.compound (combinersOf lib.sigma p b.parts)).merge x (comb x) → ∀ e ∈ comb x,
            (gateFn lib.sigma s p b e.2).law lib = (coin (lib.keep p.strategy (ε i) (δ i) l0 p.preThreshold
              (divideAndRoundUp (valuesOf e.1 x).length m))).map fun b => (b, (0 : ℝ)) := by
          intro x hx hCx e he
          have := rowCount_combined _ x (comb x) hCx (by
            intro e he
            obtain ⟨vs, -, h⟩ := hx e he
            rw [h]; rfl) e he
          simp only [gateFn, hgate, this]
          rfl
        exact gate_private hC hC' hF hdp E hm1 hE1 (hE2 l0 hl0p) (hE3 m hm) (fun e => gateFn lib.sigma s p b e.2) nums
          (hlaw a hcr hC) (hlaw a' hcr' hC')
    | true =>
      have hsp : selectsPrivately p (none : Option (List K)) = false := by
        simp [selectsPrivately, hpt]
      have hselN : b.selection = none := by
        rw [hsp] at hsel
        simpa using hsel
      obtain ⟨i, hi, μ, hμ1, hμ2, hμ3⟩ := thresholdPart_spec lib.sigma p b.parts (hth hpt)
      have hith := mem_thSpecs.mpr hi
      have hsi := hthok i hith
      have hbe := hs.ids (hs.thresholding hpt).2
      have hE3' := hE3 1 (maxRows_one hbe)
      obtain ⟨st, hst⟩ : ∃ st, ∀ sn, createThresholding (s i) sn = .ok (st, ε i, δ i, sn.l0) := by
        rw [hsi.eq]
        cases hk : p.noiseKind
        · exact ⟨.laplaceThresholding, fun sn => rfl⟩
        · exact ⟨.gaussianThresholding, fun sn => rfl⟩
      obtain ⟨sn, hsn, hl⟩ : ∃ sn, sensPrivacyIdCount p = .ok sn ∧ sn.l0 = some (l0 : ℝ) := by
        unfold sensPrivacyIdCount
        rw [hmc, hl0p]
        have h1 : (0 : ℝ) < l0 := by exact_mod_cast hl0
        simp [mkSens, positiveOrNone, h1]
      have hδ := hsi.pos (by cases p.noiseKind <;> simp [Part.mechanism, NoiseKind.thresholding])
      have hgate : ∀ acc : (Combiner.compound (combinersOf lib.sigma p b.parts)).Acc, gateOf lib.sigma s p b acc
          = .ok (.threshold st (ε i) (δ i) l0 p.preThreshold (μ acc.2)) := by
        intro acc
        unfold gateOf
        rw [hselN, hpt]
        simp only [if_true]
        rw [hμ1]
        dsimp only [thresholdGate]
        rw [hsn]
        dsimp only
        rw [hst, hl]
      refine ⟨fun acc => ⟨_, hgate acc⟩, hpa1, hpa2, ε i, δ i, hδ.le, ?_, ?_, ?_⟩
      · rw [hselN]
        simpa using le_sum_of_mem (fun j hj => (hthok j hj).eps.le) hith
      · rw [hselN]
        simpa using le_sum_of_mem (fun j hj => (hthok j hj).delta) hith
      · have hlaw : ∀ (x : List (K × (Combiner.compound (combinersOf lib.sigma p b.parts)).Acc)),
            (∀ e ∈ x, ∃ vs, vs ≠ [] ∧ e.2 = (Combiner.compound (combinersOf lib.sigma p b.parts)).create vs) →
            IsCombine (Combiner.compound (combinersOf lib.sigma p b.parts)).merge x (comb x) → ∀ e ∈ comb x,
            (gateFn lib.sigma s p b e.2).law lib = lib.threshold st (ε i) (δ i) l0 p.preThreshold
              (divideAndRoundUp (valuesOf e.1 x).length 1) := by
          intro x hx hCx e he
          have := count_combined hCx (fun acc => μ acc.2) (fun c d => hμ2 c.2 d.2) (by
            intro e he
            obtain ⟨vs, hvs, h⟩ := hx e he
            rw [h]; exact hμ3 vs hvs) e he
          rw [divideAndRoundUp_one]
          simp only [gateFn, hgate]
          rw [← this]
          rfl
        refine gate_private (N := l0) hC hC' (fun n => hlib.thresholding.prob st (ε i) (δ i) l0 p.preThreshold n)
          (fun x y h1 h2 => hlib.thresholding.dp st (ε i) (δ i) l0 p.preThreshold hsi.eps hδ (by exact_mod_cast hl0) x y h1
            (by exact_mod_cast h2)) E le_rfl hE1 (hE2 l0 hl0p) hE3' (fun e => gateFn lib.sigma s p b e.2) nums
          (hlaw a hcr hC) (hlaw a' hcr' hC')

theorem mem_qSpecs {parts : List Part} {i : ℕ} : i ∈ qSpecs parts ↔ ∃ ps, Part.quantile i ps ∈ parts := by
  unfold qSpecs
  rw [List.mem_flatMap]
  constructor
  · rintro ⟨part, h1, h2⟩
    cases part <;> simp at h2
    subst h2
    exact ⟨_, h1⟩
  · rintro ⟨ps, h⟩
    exact ⟨_, h, by simp⟩

/-- **One `aggregate` call**, possibly with percentiles (whose budgets are not used by the numbers). -/
theorem aggregate_core {lib : Library} (hlib : lib.Contract) {s : Specs} {ε δ : ℕ → ℝ} {p : Params} {pub : Option (List K)}
    (hs : SupportedAny p pub) {fmt : ℚ → String} {rs rs' : List Request} {b : Built} {key : R → K} {value : R → ℚ}
    (hb : build fmt rs (.aggregate p pub key value) = (.ok b, rs')) (hbo : BuiltOk s ε δ p.noiseKind b)
    (env : Env K) (henv : env.Lawful) (pid : R → P) (data : List R) (u : P)
    (hu : (Call.aggregate p pub key value).Promised pid data u)
    {a a' : List (K × (Combiner.compound (combinersOf lib.sigma p b.parts)).Acc)}
    (ha : accumulators env.backend p (Combiner.compound (combinersOf lib.sigma p b.parts)).sampling
      (Combiner.compound (combinersOf lib.sigma p b.parts)).create pub (extract pid key value data) = .ok a)
    (ha' : accumulators env.backend p (Combiner.compound (combinersOf lib.sigma p b.parts)).sampling
      (Combiner.compound (combinersOf lib.sigma p b.parts)).create pub (without u (extract pid key value data)) = .ok a') :
    partitionAccumulators env.backend (combinersOf lib.sigma p b.parts) (env.combine (Combiner.compound _).merge)
      (fun _ _ => true) p pub (extract pid key value data) = .ok (env.combine (Combiner.compound _).merge a) ∧
    partitionAccumulators env.backend (combinersOf lib.sigma p b.parts) (env.combine (Combiner.compound _).merge)
      (fun _ _ => true) p pub (extract pid key value (removeId pid u data)) = .ok (env.combine (Combiner.compound _).merge a') ∧
    (∀ e : K × (Combiner.compound (combinersOf lib.sigma p b.parts)).Acc,
      candidate lib.sigma s p b e = .ok ⟨e.1, gateFn lib.sigma s p b e.2, numbersOf lib.sigma s p b.parts e⟩) ∧
    ∃ q : Pair lib
        ((env.combine (Combiner.compound _).merge a).map fun e => (⟨e.1, gateFn lib.sigma s p b e.2, numbersOf lib.sigma s p b.parts e⟩ : Candidate K))
        ((env.combine (Combiner.compound _).merge a').map fun e => (⟨e.1, gateFn lib.sigma s p b e.2, numbersOf lib.sigma s p b.parts e⟩ : Candidate K)),
      q.labels = (flat lib.sigma p b.parts).map (fun x => (x.2.spec, x.2.comp)) ∧
      q.e + ((qSpecs b.parts).map ε).sum ≤ (b.specs.map ε).sum ∧ q.d + ((qSpecs b.parts).map δ).sum ≤ (b.specs.map δ).sum := by
  obtain ⟨hu1, hu2⟩ := hu
  obtain ⟨hok, hgate, hp1, hp2, ge, gd, hgd, hge1, hgd1, hg⟩ := aggregate_gate hlib hs hb hbo env.backend henv.backend
    henv.keyLocal (extract pid key value data) u hu1 (by
      intro h ps hps r hr
      obtain ⟨x, hx, rfl⟩ := List.mem_map.mp hr
      exact hu2 h ps hps x hx) (henv.combine _) ha ha' (numbersOf lib.sigma s p b.parts)
  obtain ⟨q, hq0, hq1, hq2⟩ := aggregate_pair hlib hs.bounds hok hbo.nodup hbo.parts env.backend henv.backend henv.keyLocal pub
    (extract pid key value data) u hu1 ha ha' (henv.combine _ a) (henv.combine _ a') (fun e => gateFn lib.sigma s p b e.2)
    hgd hg
  have hmech : ∀ x ∈ flat lib.sigma p b.parts, ∃ m, x.2.mech (s x.2.spec) = .ok m := fun x hx =>
    (number_facts hlib hs.bounds hok hbo.parts env.backend henv.backend henv.keyLocal pub (extract pid key value data) u hu1
      ha ha' x hx).1
  have hcand : ∀ e : K × (Combiner.compound (combinersOf lib.sigma p b.parts)).Acc,
      candidate lib.sigma s p b e = .ok ⟨e.1, gateFn lib.sigma s p b e.2, numbersOf lib.sigma s p b.parts e⟩ := by
    intro e
    obtain ⟨g, hg⟩ := hgate e.2
    unfold candidate gateFn
    rw [hg, evalParts_eq lib.sigma s p e.1 b.parts e.2.2 hmech]
    rfl
  refine ⟨hp1, by rw [extract_removeId]; exact hp2, hcand, q, hq0, ?_, ?_⟩
  · have := (flat_any lib.sigma p b.parts hok hbo.nodup).2.2 ε
    rw [hq1, Built.specs, List.map_append, List.sum_append, ← this]
    linarith
  · have := (flat_any lib.sigma p b.parts hok hbo.nodup).2.2 δ
    rw [Built.specs, List.map_append, List.sum_append, ← this]
    linarith

/-- **One `aggregate` call.** -/
theorem aggregate_call {lib : Library} (hlib : lib.Contract) {s : Specs} {ε δ : ℕ → ℝ} {p : Params} {pub : Option (List K)}
    (hs : SupportedAggregate p pub) {fmt : ℚ → String} {rs rs' : List Request} {b : Built} {key : R → K} {value : R → ℚ}
    (hb : build fmt rs (.aggregate p pub key value) = (.ok b, rs')) (hbo : BuiltOk s ε δ p.noiseKind b)
    (env : Env K) (henv : env.Lawful) (pid : R → P) (data : List R) (u : P)
    (hu : (Call.aggregate p pub key value).Promised pid data u) :
    ∃ c c', evalCall lib.sigma s env pid b data (.aggregate p pub key value) = .ok c ∧
      evalCall lib.sigma s env pid b (removeId pid u data) (.aggregate p pub key value) = .ok c' ∧
      ∃ q : Pair lib c c', q.e ≤ (b.specs.map ε).sum ∧ q.d ≤ (b.specs.map δ).sum := by
  obtain ⟨a, a', -, ha, ha', -⟩ := accumulators_change env.backend henv.backend henv.keyLocal p hs.bounds
    (Combiner.compound (combinersOf lib.sigma p b.parts)).sampling (Combiner.compound (combinersOf lib.sigma p b.parts)).create
    pub (extract pid key value data) u hu.1
  obtain ⟨hp1, hp2, hcand, q, -, hq1, hq2⟩ := aggregate_core hlib hs.any hb hbo env henv pid data u hu ha ha'
  have hnn : ∀ f : ℕ → ℝ, (∀ i ∈ qSpecs b.parts, 0 ≤ f i) → 0 ≤ ((qSpecs b.parts).map f).sum := by
    intro f h
    apply List.sum_nonneg
    intro x hx
    obtain ⟨i, hi, rfl⟩ := List.mem_map.mp hx
    exact h i hi
  have hsp : ∀ i ∈ qSpecs b.parts, 0 ≤ ε i ∧ 0 ≤ δ i := by
    intro i hi
    obtain ⟨ps, h⟩ := mem_qSpecs.mp hi
    have := hbo.parts _ h i (by simp [Part.specs])
    exact ⟨this.eps.le, this.delta⟩
  refine ⟨_, _, ?_, ?_, q, ?_, ?_⟩
  · simp only [evalCall]
    rw [hp1]
    exact mapM_ok' _ _ _ fun e _ => hcand e
  · simp only [evalCall]
    rw [hp2]
    exact mapM_ok' _ _ _ fun e _ => hcand e
  · linarith [hnn ε fun i hi => (hsp i hi).1]
  · linarith [hnn δ fun i hi => (hsp i hi).2]

end PDP.EndToEnd
