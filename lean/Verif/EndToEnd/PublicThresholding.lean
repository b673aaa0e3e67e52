import Verif.EndToEnd.CallsExample

/-!
# Post-aggregation thresholding with public partitions is differentially private (C84)

`dp_engine.py:134-186`: with public partitions and `post_aggregation_thresholding` every public partition, also an empty one, is decided by
PyDP's thresholding.  The promise of PyDP which is needed here covers counts of 0.
-/

set_option linter.unusedSectionVars false

namespace PDP.EndToEnd

open PDP PDP.Engine MeasureTheory
open PDP.Engine.AddNoise (specOf)
open PDP.Engine.Mechanism (createThresholding)
open PDP.Budget (State Op MechType)
open PDP.Approx (Indist)

variable {R P K : Type} [DecidableEq P] [DecidableEq K]

/-! ### Specification -/

/-- PyDP's `noised_value_if_should_keep` is `(e, d)`-differentially private on partitions that are known, also on those with 0 privacy
ids: if one privacy id is counted (once) in at most `l0` of them, then the results with and without it are indistinguishable. -/
def ThresholdsKnownPartitions (threshold : Strategy → ℝ → ℝ → ℝ → Option ℕ → ℕ → Measure (Bool × ℝ)) : Prop :=
  ∀ st e d l0 pre, 0 < e → 0 < d → 1 ≤ l0 → ∀ {ι : Type} [Fintype ι] (a b : ι → ℕ),
    (∀ i, b i ≤ a i ∧ a i ≤ b i + 1) → (Fintype.card {i // a i ≠ b i} : ℝ) ≤ l0 →
    Indist e d (Measure.pi fun i => threshold st e d l0 pre (a i)) (Measure.pi fun i => threshold st e d l0 pre (b i)) ∧
      Indist e d (Measure.pi fun i => threshold st e d l0 pre (b i)) (Measure.pi fun i => threshold st e d l0 pre (a i))

/-- As `Call.Supported`, but post-aggregation thresholding is also allowed with public partitions. -/
def Call.SupportedKnown : Call R K → Prop
  | .aggregate p pub _ _ => SupportedAggregate p (if p.postThresholding then none else pub)
  | .select p _ => 1 ≤ p.maxPartitions ∧ 0 < p.weight

/-- The call needs a positive delta: Gaussian noise, partitions that are not public, or thresholding. -/
def Call.NeedsDeltaKnown : Call R K → Prop
  | .aggregate p pub _ _ => p.noiseKind = .gaussian ∨ pub = none ∨ p.postThresholding = true
  | .select _ _ => True

/-! ### The same budgets as without public partitions -/

/-- The call without its public partitions, if it uses thresholding. -/
def Call.strip : Call R K → Call R K
  | .aggregate p pub key value => .aggregate p (if p.postThresholding then none else pub) key value
  | .select p key => .select p key

theorem Call.strip_supported {c : Call R K} (h : c.SupportedKnown) : c.strip.Supported := by
  cases c <;> exact h

theorem Call.strip_kind (c : Call R K) : c.strip.kind = c.kind := by cases c <;> rfl

theorem Call.strip_weight (c : Call R K) : c.strip.weight = c.weight := by cases c <;> rfl

theorem Call.strip_needs {c : Call R K} (h : c.strip.NeedsDelta) : c.NeedsDeltaKnown := by
  cases c with
  | select p key => trivial
  | aggregate p pub key value =>
    rcases h with h | h
    · exact Or.inl h
    · cases hpt : p.postThresholding with
      | true => exact Or.inr (Or.inr hpt)
      | false => rw [hpt] at h; exact Or.inr (Or.inl (by simpa using h))

theorem build_strip (fmt : ℚ → String) (rs : List Request) (c : Call R K) : build fmt rs c.strip = build fmt rs c := by
  cases c with
  | select p key => rfl
  | aggregate p pub key value =>
    cases hpt : p.postThresholding with
    | false => simp [Call.strip, hpt]
    | true => simp [Call.strip, hpt, build, selectsPrivately]

theorem planCalls_strip (fmt : ℚ → String) : ∀ (rs : List Request) (cs : List (Call R K)),
    planCalls fmt rs (cs.map Call.strip) = planCalls fmt rs cs
  | _, [] => rfl
  | rs, c :: cs => by
    simp only [List.map_cons, planCalls, build_strip, Call.strip_weight]
    rcases build fmt rs c with ⟨e | b, rs'⟩
    · rfl
    · simp only [planCalls_strip fmt rs' cs]

/-! ### Decisions -/

/-- Decisions on known partitions `k ∈ ps`, with counts `n` and `n'`, on other partitions nothing. -/
theorem gate_known {lib : Library} {c c' : List (Candidate K)} {F : ℕ → Measure (Bool × ℝ)} {e d : ℝ} {N : ℕ}
    (hF : ∀ n, IsProbabilityMeasure (F n))
    (hdp : ∀ {ι : Type} [Fintype ι] (a b : ι → ℕ), (∀ i, b i ≤ a i ∧ a i ≤ b i + 1) → Fintype.card {i // a i ≠ b i} ≤ N →
      Indist e d (Measure.pi fun i => F (a i)) (Measure.pi fun i => F (b i)) ∧
      Indist e d (Measure.pi fun i => F (b i)) (Measure.pi fun i => F (a i)))
    (n n' : K → ℕ) (hn : ∀ k, n' k ≤ n k ∧ n k ≤ n' k + 1) (D : List K) (hD : D.dedup.length ≤ N)
    (hne : ∀ k, n k ≠ n' k → k ∈ D) (ps : List K)
    (hc : ∀ k, decisionLaw lib c k = if k ∈ ps then F (n k) else Measure.dirac (false, 0))
    (hc' : ∀ k, decisionLaw lib c' k = if k ∈ ps then F (n' k) else Measure.dirac (false, 0)) : GateClose lib c c' e d := by
  have hprob : ∀ (k : K) (n : ℕ), IsProbabilityMeasure (if k ∈ ps then F n else Measure.dirac (false, 0)) := by
    intro k n
    split
    · exact hF n
    · infer_instance
  have hcard : ∀ {ι : Type} [Fintype ι] (f : ι → K), Function.Injective f →
      Fintype.card {i // n (f i) ≠ n' (f i)} ≤ N := by
    intro ι _ f hf
    refine le_trans ?_ hD
    rw [← List.toFinset_card_of_nodup (List.nodup_dedup D), Fintype.card_subtype]
    refine Finset.card_le_card_of_injOn f ?_ fun x _ y _ hxy => hf hxy
    intro i hi
    simp only [Finset.coe_filter, Finset.mem_univ, true_and, Set.mem_ofPred_eq] at hi
    simp only [Finset.mem_coe, List.mem_toFinset, List.mem_dedup]
    exact hne _ hi
  have hpi : ∀ {ι : Type} [Fintype ι] (f : ι → K) (m : K → ℕ),
      (Measure.pi fun i => if f i ∈ ps then F (m (f i)) else Measure.dirac (false, 0))
        = (Measure.pi fun i => F (m (f i))).map fun x i => if f i ∈ ps then x i else (false, 0) := by
    intro ι _ f m
    have hmeas : ∀ i, Measurable fun y : Bool × ℝ => if f i ∈ ps then y else (false, 0) := by
      intro i
      by_cases h : f i ∈ ps
      · simp only [h, if_true]; exact measurable_id
      · simp only [h, if_false]; exact measurable_const
    have := fun i => hF (m (f i))
    rw [Measure.pi_map_pi (f := fun i (y : Bool × ℝ) => if f i ∈ ps then y else (false, 0)) fun i => (hmeas i).aemeasurable]
    congr 1
    funext i
    by_cases h : f i ∈ ps
    · simp only [h, if_true]
      exact Measure.map_id.symm
    · simp only [h, if_false]
      rw [Measure.map_const, measure_univ, one_smul]
  have hmeas : ∀ {ι : Type} [Fintype ι] (f : ι → K),
      Measurable fun (x : ι → Bool × ℝ) (i : ι) => if f i ∈ ps then x i else ((false, 0) : Bool × ℝ) := by
    intro ι _ f
    refine measurable_pi_lambda _ fun i => ?_
    by_cases h : f i ∈ ps
    · simp only [h, if_true]; exact measurable_pi_apply i
    · simp only [h, if_false]; exact measurable_const
  have e1 : decisionLaw lib c = fun k => if k ∈ ps then F (n k) else Measure.dirac (false, 0) := funext hc
  have e2 : decisionLaw lib c' = fun k => if k ∈ ps then F (n' k) else Measure.dirac (false, 0) := funext hc'
  refine ⟨fun k => by rw [hc]; exact hprob _ _, fun k => by rw [hc']; exact hprob _ _, ?_, ?_⟩
  · intro ι _ f hf
    rw [e1, e2]
    dsimp only
    rw [hpi f n, hpi f n']
    exact (hdp (fun i => n (f i)) (fun i => n' (f i)) (fun i => hn (f i)) (hcard f hf)).1.map (hmeas f)
  · intro ι _ f hf
    rw [e1, e2]
    dsimp only
    rw [hpi f n, hpi f n']
    exact (hdp (fun i => n (f i)) (fun i => n' (f i)) (fun i => hn (f i)) (hcard f hf)).2.map (hmeas f)

/-- **One call with public partitions and thresholding.** -/
theorem known_call {lib : Library} (hlib : lib.Contract) (hkn : ThresholdsKnownPartitions lib.threshold) {s : Specs} {ε δ : ℕ → ℝ}
    {p : Params} (ps : List K) (hpt : p.postThresholding = true) (hs : SupportedAggregate p (none : Option (List K)))
    {fmt : ℚ → String} {rs rs' : List Request} {b : Built} {key : R → K} {value : R → ℚ}
    (hb : build fmt rs (.aggregate p (some ps) key value) = (.ok b, rs')) (hbo : BuiltOk s ε δ p.noiseKind b)
    (env : Env K) (henv : env.Lawful) (pid : R → P) (data : List R) (u : P)
    (hu : (Call.aggregate p (some ps) key value).Promised pid data u) :
    ∃ c c', evalCall lib.sigma s env pid b data (.aggregate p (some ps) key value) = .ok c ∧
      evalCall lib.sigma s env pid b (removeId pid u data) (.aggregate p (some ps) key value) = .ok c' ∧
      ∃ q : Pair lib c c', q.e ≤ (b.specs.map ε).sum ∧ q.d ≤ (b.specs.map δ).sum := by
  obtain ⟨hu1, hu2⟩ := hu
  obtain ⟨⟨rs1, hcc⟩, hsel⟩ := build_aggregate hb
  obtain ⟨hok, hth⟩ := parts_ok_any hs.any hcc
  have hsp : selectsPrivately p (some ps) = false := by simp [selectsPrivately]
  have hselN : b.selection = none := by
    rw [hsp] at hsel
    simpa using hsel
  obtain ⟨hmc, -⟩ := hs.hidden rfl
  obtain ⟨l0, m, hl0, -, hl0p, -⟩ := maxRows_ok hs.bounds hmc
  have hbe := hs.ids (hs.thresholding hpt).2
  have hthok : ∀ i ∈ thSpecs b.parts, SpecOk s ε δ i ((Part.thresholding i).mechanism p.noiseKind) := fun i hi =>
    hbo.parts _ (mem_thSpecs.mp hi) i (by simp [Part.specs])
  obtain ⟨i, hi, μ, hμ1, hμ2, hμ3⟩ := thresholdPart_spec lib.sigma p b.parts (hth hpt)
  have hith := mem_thSpecs.mpr hi
  have hsi := hthok i hith
  obtain ⟨st, hst⟩ : ∃ st, ∀ sn, createThresholding (s i) sn = .ok (st, ε i, δ i, sn.l0) := by
    rw [hsi.eq]
    cases hk : p.noiseKind
    · exact ⟨.laplaceThresholding, fun sn => rfl⟩
    · exact ⟨.gaussianThresholding, fun sn => rfl⟩
  obtain ⟨sn, hsn, hl⟩ : ∃ sn, sensPrivacyIdCount p = .ok sn ∧ sn.l0 = some (l0 : ℝ) := by
    unfold sensPrivacyIdCount
    rw [hmc, hl0p]
    have h1 : (0 : ℝ) < l0 := by exact_mod_cast hl0
    simp [mkSens, positiveOrNone, h1]
  have hδ := hsi.pos (by cases p.noiseKind <;> simp [Part.mechanism, NoiseKind.thresholding])
  have hgate : ∀ acc : (Combiner.compound (combinersOf lib.sigma p b.parts)).Acc, gateOf lib.sigma s p b acc
      = .ok (.threshold st (ε i) (δ i) l0 p.preThreshold (μ acc.2)) := by
    intro acc
    unfold gateOf
    rw [hselN, hpt]
    simp only [if_true]
    rw [hμ1]
    dsimp only [thresholdGate]
    rw [hsn]
    dsimp only
    rw [hst, hl]
  obtain ⟨a, a', E, ha, ha', hE1, hE2⟩ := accumulators_change env.backend henv.backend henv.keyLocal p hs.bounds
    (Combiner.compound (combinersOf lib.sigma p b.parts)).sampling (Combiner.compound (combinersOf lib.sigma p b.parts)).create
    (some ps) (extract pid key value data) u hu1
  have hfil : p.publicFiltered = true → ∀ r ∈ extract pid key value data, r.2.1 ∈ ps := by
    intro h r hr
    obtain ⟨x, hx, rfl⟩ := List.mem_map.mp hr
    exact hu2 h ps rfl x hx
  have hcomb := henv.combine (Combiner.compound (combinersOf lib.sigma p b.parts)).merge
  have hC := hcomb a
  have hC' := hcomb a'
  have hpa : ∀ (c : List (P × K × ℚ)) (x), accumulators env.backend p
      (Combiner.compound (combinersOf lib.sigma p b.parts)).sampling
      (Combiner.compound (combinersOf lib.sigma p b.parts)).create (some ps) c = .ok x →
      partitionAccumulators env.backend (combinersOf lib.sigma p b.parts) (env.combine (Combiner.compound _).merge)
        (fun _ _ => true) p (some ps) c = .ok (env.combine (Combiner.compound _).merge x) := by
    intro c x hx
    unfold partitionAccumulators
    rw [hx]
    simp only [hsp]; rfl
  have hkeys : ∀ (c : List (P × K × ℚ)) (x), (∀ r ∈ c, r ∈ extract pid key value data) →
      accumulators env.backend p (Combiner.compound (combinersOf lib.sigma p b.parts)).sampling
        (Combiner.compound (combinersOf lib.sigma p b.parts)).create (some ps) c = .ok x →
      ∀ k, k ∈ (env.combine (Combiner.compound _).merge x).map Prod.fst ↔ k ∈ ps := by
    intro c x hc hx
    obtain ⟨out, en, h1, h2, h3, -⟩ := C23_public_partitions_are_the_output env.backend henv.backend p hs.bounds
      (combinersOf lib.sigma p b.parts) _ hcomb (fun _ _ => true) ps c (fun h r hr => hfil h r (hc r hr))
    rw [hpa c x hx] at h1
    cases h1
    exact h3
  -- the numbers of users
  let cnt : List (K × (Combiner.compound (combinersOf lib.sigma p b.parts)).Acc) → K → ℕ := fun x k =>
    ((valuesOf k x).map fun acc => μ acc.2).sum
  have hcast : ∀ x k, partitionTotal (fun acc : (Combiner.compound (combinersOf lib.sigma p b.parts)).Acc => ((μ acc.2 : ℕ) : ℚ)) x k
      = (cnt x k : ℚ) := by
    intro x k
    simp only [partitionTotal, cnt]
    rw [Nat.cast_list_sum, List.map_map]; rfl
  have hdiff : ∀ k, cnt a k = cnt a' k + (valuesOf k E).length := by
    intro k
    have h := hE1 (fun acc => ((μ acc.2 : ℕ) : ℚ)) k
    rw [hcast, hcast] at h
    have h1 : partitionTotal (fun vs => ((μ ((Combiner.compound (combinersOf lib.sigma p b.parts)).create vs).2 : ℕ) : ℚ)) E k
        = ((valuesOf k E).length : ℚ) := by
      unfold partitionTotal
      rw [List.map_congr_left (g := fun _ => (1 : ℚ))]
      · simp
      · intro vs hvs
        have : μ ((Combiner.compound (combinersOf lib.sigma p b.parts)).create vs).2 = 1 :=
          hμ3 vs (hE2.nonempty _ (mem_valuesOf.mp hvs))
        rw [this, Nat.cast_one]
    rw [h1, sub_eq_iff_eq_add] at h
    have : cnt a k = (valuesOf k E).length + cnt a' k := by exact_mod_cast h
    omega
  have honce : ∀ k, (valuesOf k E).length ≤ 1 := by
    intro k
    rw [valuesOf_length]
    exact List.nodup_iff_count_le_one.mp (hE2.once hbe) k
  have hlaw : ∀ x, (∀ k, k ∈ (env.combine (Combiner.compound _).merge x).map Prod.fst ↔ k ∈ ps) →
      IsCombine (Combiner.compound (combinersOf lib.sigma p b.parts)).merge x (env.combine (Combiner.compound _).merge x) → ∀ k,
      decisionLaw lib ((env.combine (Combiner.compound _).merge x).map fun e =>
        (⟨e.1, gateFn lib.sigma s p b e.2, numbersOf lib.sigma s p b.parts e⟩ : Candidate K)) k
        = if k ∈ ps then lib.threshold st (ε i) (δ i) l0 p.preThreshold (cnt x k) else Measure.dirac (false, 0) := by
    intro x hk hCx k
    obtain ⟨h1, h2⟩ := decisionLaw_map lib _ hCx.nodup (fun e => gateFn lib.sigma s p b e.2)
      (numbersOf lib.sigma s p b.parts) k
    by_cases h : k ∈ ps
    · rw [if_pos h]
      obtain ⟨e, he, rfl⟩ := List.mem_map.mp ((hk k).mpr h)
      rw [h1 e he rfl]
      simp only [gateFn, hgate]
      obtain ⟨t, ht1, ht2⟩ := hCx.values e he
      have hcount : μ e.2.2 = cnt x e.1 := by
        rw [ht2]
        refine (eval_hom (Combiner.compound (combinersOf lib.sigma p b.parts)).merge (fun acc => μ acc.2)
          (fun c d => hμ2 c.2 d.2) t).trans ?_
        rw [(ht1.map _).sum_eq]
      rw [← hcount]; rfl
    · rw [if_neg h, h2 fun h' => h ((hk k).mp h')]
  have hg := gate_known (lib := lib) (N := l0) (fun n => hlib.thresholding.prob st (ε i) (δ i) l0 p.preThreshold n)
    (fun x y h1 h2 => hkn st (ε i) (δ i) l0 p.preThreshold hsi.eps hδ (by exact_mod_cast hl0) x y h1 (by exact_mod_cast h2))
    (cnt a) (cnt a') (fun k => by rw [hdiff k]; have := honce k; omega) (E.map Prod.fst) (hE2.partitions l0 hl0p)
    (fun k hk => by
      rw [← valuesOf_ne_nil]
      intro h0
      apply hk
      rw [hdiff k, h0]; rfl) ps
    (hlaw a (hkeys _ a (fun r hr => hr) ha) hC) (hlaw a' (hkeys _ a' (fun r hr => (List.mem_filter.mp hr).1) ha') hC')
  obtain ⟨q, -, hq1, hq2⟩ := aggregate_pair hlib hs.bounds hok hbo.nodup hbo.parts env.backend henv.backend henv.keyLocal (some ps)
    (extract pid key value data) u hu1 ha ha' hC hC' (fun e => gateFn lib.sigma s p b e.2) hδ.le hg
  have hmech : ∀ x ∈ flat lib.sigma p b.parts, ∃ m, x.2.mech (s x.2.spec) = .ok m := fun x hx =>
    (number_facts hlib hs.bounds hok hbo.parts env.backend henv.backend henv.keyLocal (some ps) (extract pid key value data) u hu1
      ha ha' x hx).1
  have hcand : ∀ e : K × (Combiner.compound (combinersOf lib.sigma p b.parts)).Acc,
      candidate lib.sigma s p b e = .ok ⟨e.1, gateFn lib.sigma s p b e.2, numbersOf lib.sigma s p b.parts e⟩ := by
    intro e
    unfold candidate gateFn
    rw [hgate, evalParts_eq lib.sigma s p e.1 b.parts e.2.2 hmech]
    rfl
  have hqn : ∀ f : ℕ → ℝ, (∀ part ∈ b.parts, ∀ j ∈ part.specs, 0 ≤ f j) → 0 ≤ ((qSpecs b.parts).map f).sum := by
    intro f h
    apply List.sum_nonneg
    intro x hx
    obtain ⟨j, hj, rfl⟩ := List.mem_map.mp hx
    obtain ⟨qs, hq⟩ := mem_qSpecs.mp hj
    exact h _ hq j (by simp [Part.specs])
  have hsum := (flat_any lib.sigma p b.parts hok hbo.nodup).2.2
  refine ⟨_, _, ?_, ?_, q, ?_, ?_⟩
  · simp only [evalCall]
    rw [hpa _ _ ha]
    exact mapM_ok' _ _ _ fun e _ => hcand e
  · simp only [evalCall]
    rw [extract_removeId, hpa _ _ ha']
    exact mapM_ok' _ _ _ fun e _ => hcand e
  · have h1 := hsum ε
    have h2 := hqn ε fun part hp j hj => (hbo.parts part hp j hj).eps.le
    have h3 := le_sum_of_mem (fun j hj => (hthok j hj).eps.le) hith
    rw [hq1, Built.specs, List.map_append, List.sum_append, ← h1, hselN]
    simp only [Option.toList_none, List.map_nil, List.sum_nil]
    linarith
  · have h1 := hsum δ
    have h2 := hqn δ fun part hp j hj => (hbo.parts part hp j hj).delta
    have h3 := le_sum_of_mem (fun j hj => (hthok j hj).delta) hith
    rw [Built.specs, List.map_append, List.sum_append, ← h1, hselN]
    simp only [Option.toList_none, List.map_nil, List.sum_nil]
    linarith

/-! ### All calls -/

theorem known_step {lib : Library} (hlib : lib.Contract) (hkn : ThresholdsKnownPartitions lib.threshold) {s : Specs} {ε δ : ℕ → ℝ}
    {fmt : ℚ → String} {rs rs' : List Request} {b : Built} {c : Call R K} (hc : c.SupportedKnown)
    (hx : build fmt rs c = (.ok b, rs')) (hb : BuiltOk s ε δ c.kind b) (env : Env K) (henv : env.Lawful) (pid : R → P)
    (data : List R) (u : P) (hu : c.Promised pid data u) :
    ∃ x x', evalCall lib.sigma s env pid b data c = .ok x ∧ evalCall lib.sigma s env pid b (removeId pid u data) c = .ok x' ∧
      ∃ q : Pair lib x x', q.e ≤ (b.specs.map ε).sum ∧ q.d ≤ (b.specs.map δ).sum := by
  cases c with
  | select p key => exact select_call hlib hc.1 hx hb env henv pid data u
  | aggregate p pub key value =>
    unfold Call.SupportedKnown at hc
    dsimp only at hc
    by_cases hpt : p.postThresholding = true
    · rw [if_pos hpt] at hc
      cases pub with
      | none => exact aggregate_call hlib hc hx hb env henv pid data u hu
      | some ps => exact known_call hlib hkn ps hpt hc hx hb env henv pid data u hu
    · rw [if_neg hpt] at hc
      exact aggregate_call hlib hc hx hb env henv pid data u hu

theorem known_pairs {lib : Library} (hlib : lib.Contract) (hkn : ThresholdsKnownPartitions lib.threshold) {s : Specs} {ε δ : ℕ → ℝ}
    {fmt : ℚ → String} (env : ℕ → Env K) (henv : ∀ j, (env j).Lawful) (pid : R → P) (data : List R) (u : P)
    {cs : List (Call R K)} (hs : ∀ c ∈ cs, c.SupportedKnown) (hu : ∀ c ∈ cs, c.Promised pid data u) :
    ∀ (j : ℕ) {rs : List Request} {bs ops}, planCalls fmt rs cs = .ok (bs, ops) →
      (∀ x ∈ cs.zip bs, BuiltOk s ε δ x.1.kind x.2) →
      ∃ L L', evalCalls lib.sigma s env pid data j cs bs = .ok L ∧
        evalCalls lib.sigma s env pid (removeId pid u data) j cs bs = .ok L' ∧
        L.length = cs.length ∧ L'.length = cs.length ∧
        ∃ p : ∀ j, Pair lib (L.getD j []) (L'.getD j []),
          ((List.range cs.length).map fun j => (p j).e).sum ≤ ((bs.flatMap Built.specs).map ε).sum ∧
          ((List.range cs.length).map fun j => (p j).d).sum ≤ ((bs.flatMap Built.specs).map δ).sum := by
  induction cs with
  | nil =>
    intro j rs bs ops h _
    simp only [planCalls, Except.ok.injEq, Prod.mk.injEq] at h
    obtain ⟨rfl, rfl⟩ := h
    obtain ⟨q, -, -⟩ := empty_pair (K := K) lib
    exact ⟨[], [], rfl, rfl, rfl, rfl, fun _ => q, by simp, by simp⟩
  | cons c cs ih =>
    intro j rs bs ops h hbo
    have hc := hs c (by simp)
    rcases hx : build fmt rs c with ⟨r, rs'⟩
    rw [planCalls, hx] at h
    rcases r with e | b
    · simp at h
    · dsimp only at h
      rcases hp : planCalls fmt rs' cs with e | ⟨bs', ops'⟩
      · rw [hp] at h; simp at h
      · rw [hp] at h
        simp only [Except.ok.injEq, Prod.mk.injEq] at h
        obtain ⟨rfl, rfl⟩ := h
        have hb : BuiltOk s ε δ c.kind b := hbo (c, b) (by simp)
        obtain ⟨x, x', h1, h2, q, hq1, hq2⟩ := known_step hlib hkn hc hx hb (env j) (henv j) pid data u (hu _ (by simp))
        obtain ⟨L, L', g1, g2, g3, g4, p, g5, g6⟩ := ih (fun c hc => hs c (by simp [hc])) (fun c hc => hu c (by simp [hc]))
          (j + 1) hp (fun x hx => hbo x (by simp [hx]))
        let p' : ∀ j, Pair lib ((x :: L).getD j []) ((x' :: L').getD j []) := fun j =>
          match j with
          | 0 => q
          | j + 1 => p j
        refine ⟨x :: L, x' :: L', ?_, ?_, by simp [g3], by simp [g4], p', ?_, ?_⟩
        · simp only [evalCalls, h1, g1]
        · simp only [evalCalls, h2, g2]
        · rw [List.length_cons, List.range_succ_eq_map, List.map_cons, List.map_map, List.sum_cons, List.flatMap_cons,
            List.map_append, List.sum_append]
          exact add_le_add hq1 g5
        · rw [List.length_cons, List.range_succ_eq_map, List.map_cons, List.map_map, List.sum_cons, List.flatMap_cons,
            List.map_append, List.sum_append]
          exact add_le_add hq2 g6

/-- **C84.**  A pipeline of `aggregate` and `select_partitions` calls on one naive accountant with total budget `(e, d)`, in which
post-aggregation thresholding is used with public or with private partitions, is `(e, d)`-differentially private, if PyDP keeps its
promises, also on known partitions without privacy ids.  What is observed are the released partitions among any finite set `U` of
(call, partition), with their noisy numbers: also which public partitions were dropped. -/
theorem C84_thresholded_public_partitions_are_private (fmt : ℚ → String) (lib : Library) (hlib : lib.Contract)
    (hkn : ThresholdsKnownPartitions lib.threshold) {e d : ℚ} {num ws s0}
    (h0 : Budget.init e d num ws = .ok s0) (cs : List (Call R K)) (hs : ∀ c ∈ cs, c.SupportedKnown)
    (hd : (∃ c ∈ cs, c.NeedsDeltaKnown) → 0 < d) {bs ops} (hp : planCalls fmt [] cs = .ok (bs, ops))
    (hc : (Budget.step (Budget.run s0 ops).1 .compute).2 = .unit)
    {Ω : Type} [MeasurableSpace Ω] (μ : Measure Ω) [IsProbabilityMeasure μ] (env : Ω → ℕ → Env K)
    (henv : ∀ ω j, (env ω j).Lawful) (pid : R → P) (data : List R) (u : P) (hu : ∀ c ∈ cs, c.Promised pid data u) :
    let s := specOf (Budget.step (Budget.run s0 ops).1 .compute).1
    ∃ L L' : Ω → List (List (Candidate K)),
      (∀ ω, evalCalls lib.sigma s (env ω) pid data 0 cs bs = .ok (L ω) ∧
        evalCalls lib.sigma s (env ω) pid (removeId pid u data) 0 cs bs = .ok (L' ω)) ∧
      ∀ (U : Finset (ℕ × K)) (S : Finset (ℕ × ℕ)),
        (∀ ω, IsProbabilityMeasure (observedLaw lib U S (L ω)) ∧ IsProbabilityMeasure (observedLaw lib U S (L' ω))) ∧
        ∀ A, MeasurableSet A →
          ∫⁻ ω, observedLaw lib U S (L ω) A ∂μ
            ≤ ENNReal.ofReal (Real.exp e) * ∫⁻ ω, observedLaw lib U S (L' ω) A ∂μ + ENNReal.ofReal d ∧
          ∫⁻ ω, observedLaw lib U S (L' ω) A ∂μ
            ≤ ENNReal.ofReal (Real.exp e) * ∫⁻ ω, observedLaw lib U S (L ω) A ∂μ + ENNReal.ofReal d := by
  intro s
  obtain ⟨hplain, new, hreq, hspecs, hrq, hnd⟩ := planCalls_spec (cs := cs.map Call.strip) (by
    intro c hm
    obtain ⟨c', hm', rfl⟩ := List.mem_map.mp hm
    exact Call.strip_supported (hs c' hm')) ((planCalls_strip fmt [] cs).trans hp)
  obtain ⟨ε, δ, hok, hε, hδ⟩ := budgets_published hplain hreq h0 (fun r hr hne => hd (by
    obtain ⟨c, hm, hn⟩ := hnd r hr hne
    obtain ⟨c', hm', rfl⟩ := List.mem_map.mp hm
    exact ⟨c', hm', Call.strip_needs hn⟩)) hc
  have hbo : ∀ x ∈ cs.zip bs, BuiltOk s ε δ x.1.kind x.2 := by
    intro x hx
    have hx' : (x.1.strip, x.2) ∈ (cs.map Call.strip).zip bs := by
      rw [List.zip_map_left]
      exact List.mem_map.mpr ⟨x, hx, rfl⟩
    have h := hrq _ hx'
    rw [List.nil_append] at h
    simp only [Call.strip_kind] at h
    refine ⟨fun part hpart i hi => ?_, fun i hi => ?_, h.nodup⟩
    · obtain ⟨w, hw⟩ := h.parts part hpart i hi
      exact hok i _ hw
    · obtain ⟨w, hw⟩ := h.selection i hi
      exact hok i _ hw
  have key := fun ω => known_pairs hlib hkn (env ω) (henv ω) pid data u hs hu 0 hp hbo
  rw [List.length_nil] at hspecs
  rw [hspecs] at key
  choose L L' a1 a2 a3 a4 p a5 a6 using key
  refine ⟨L, L', fun ω => ⟨a1 ω, a2 ω⟩, fun U S => ⟨fun ω => ⟨?_, ?_⟩, fun A hA => ?_⟩⟩
  · exact observedLaw_prob (p ω) U S
  · exact observedLaw_prob (fun j => (p ω j).swap) U S
  · have fin : ∀ f g : Ω → ENNReal, (∀ ω, f ω ≤ ENNReal.ofReal (Real.exp e) * g ω + ENNReal.ofReal d) →
        ∫⁻ ω, f ω ∂μ ≤ ENNReal.ofReal (Real.exp e) * ∫⁻ ω, g ω ∂μ + ENNReal.ofReal d := by
      intro f g hfg
      refine (lintegral_mono hfg).trans ?_
      rw [lintegral_add_right _ measurable_const, lintegral_const_mul' _ _ ENNReal.ofReal_ne_top]
      simp
    have h1 : ∀ ω, ((List.range cs.length).map fun j => (p ω j).e).sum ≤ e := fun ω => (a5 ω).trans hε
    have h2 : ∀ ω, ((List.range cs.length).map fun j => (p ω j).d).sum ≤ d := fun ω => (a6 ω).trans hδ
    constructor
    · exact fin _ _ fun ω => ((observed_indist cs.length (p ω) (a3 ω) (a4 ω) U S).mono (h1 ω) (h2 ω)) A hA
    · exact fin _ _ fun ω => ((observed_indist cs.length (fun j => (p ω j).swap) (a4 ω) (a3 ω) U S).mono (h1 ω) (h2 ω)) A hA

/-- **C84** (when the promise is kept).  If PyDP never releases a partition without privacy ids, then its promise for partitions that
exist (the contract of C62) already covers the known ones. -/
theorem C84_dropping_empty_partitions_suffices (lib : Library) (hlib : lib.Contract)
    (h0 : ∀ st e d l0 pre, lib.threshold st e d l0 pre 0 = Measure.dirac (false, 0)) : ThresholdsKnownPartitions lib.threshold := by
  intro st e d l0 pre he hd hl ι _ a b hab hcard
  have h : ∀ n, orAbsentLaw (lib.threshold st e d l0 pre) n = lib.threshold st e d l0 pre n := by
    intro n
    unfold orAbsentLaw
    split
    · rename_i hn; rw [hn, h0]
    · rfl
  have := hlib.thresholding.dp st e d l0 pre he hd hl a b hab hcard
  simpa only [h] using this

/-! ### Example -/

/-- Laplace thresholding which never releases a partition without privacy ids. -/
example : ∃ lib : Library, lib.Contract ∧ (∀ st e d l0 pre, lib.threshold st e d l0 pre 0 = Measure.dirac (false, 0)) ∧
    ∀ st e d l0 pre, lib.threshold st e d l0 pre 1 = laplaceThresholding e d l0 1 := by
  refine ⟨{ exampleLibrary with threshold := fun st e d l0 pre => orAbsentLaw (exampleLibrary.threshold st e d l0 pre) },
    ⟨exampleLibrary_contract.gaussian, exampleLibrary_contract.selection, ?_, ?_⟩, ?_, ?_⟩
  · intro st e d l0 pre n
    dsimp only
    unfold orAbsentLaw
    split
    · infer_instance
    · exact exampleLibrary_contract.thresholding.prob ..
  · intro st e d l0 pre he hd hl ι _ a b hab hcard
    have h : ∀ (f : ℕ → Measure (Bool × ℝ)) (n : ℕ), orAbsentLaw (orAbsentLaw f) n = orAbsentLaw f n := by
      intro f n
      unfold orAbsentLaw
      split <;> rfl
    simp only [h]
    exact exampleLibrary_contract.thresholding.dp st e d l0 pre he hd hl a b hab hcard
  · intro st e d l0 pre; simp [orAbsentLaw]
  · intro st e d l0 pre; simp [orAbsentLaw, exampleLibrary]

/-- The promise can be kept: by Laplace thresholding. -/
theorem thresholdsKnownPartitions_laplace : ThresholdsKnownPartitions fun _ e d l0 _ n => laplaceThresholding e d l0 n := by
  intro st e d l0 pre he hd hl ι _ a b hab hcard
  have hl' : (0 : ℝ) < l0 := by linarith
  have hnear : ∀ m n, (m = n + 1 ∨ n = m + 1) →
      Indist (e / l0) (d / l0) (laplaceThresholding e d l0 m) (laplaceThresholding e d l0 n) := fun m n h =>
    (laplaceThresholding_near he hl' m n h).mono le_rfl (by positivity)
  refine ⟨pi_partitionwise he.le hd.le hl _ (laplaceThresholding_prob e d l0) hnear a b (fun i => ?_) hcard,
    pi_partitionwise he.le hd.le hl _ (laplaceThresholding_prob e d l0) hnear b a (fun i => ?_) ?_⟩
  · have := hab i; omega
  · have := hab i; omega
  · simpa [ne_comm] using hcard

/-- Thresholded counts and sums of the public days 0, 1 and 2, and of private days. -/
def exampleKnown : List (Call (ℕ × ℕ × ℚ) ℕ) :=
  [.aggregate exampleThresholded (some [0, 1, 2]) (fun r => r.2.1) (fun r => r.2.2),
   .aggregate exampleThresholded none (fun r => r.2.1) (fun r => r.2.2)]

theorem exampleKnown_supported : ∀ c ∈ exampleKnown, c.SupportedKnown := by
  intro c hc
  have h : SupportedAggregate exampleThresholded (none : Option (List ℕ)) := exampleCalls_supported
    (.aggregate exampleThresholded none (fun r => r.2.1) (fun r => r.2.2)) (by simp [exampleCalls])
  simp only [exampleKnown, List.mem_cons, List.not_mem_nil, or_false] at hc
  rcases hc with rfl | rfl <;> exact h

/-- The hypotheses of C84 hold for this pipeline with total budget (1, 1/1000), on every dataset and for every user. -/
example (fmt : ℚ → String) (data : List (ℕ × ℕ × ℚ)) (u : ℕ) :
    ∃ s0 bs ops, Budget.init 1 (1 / 1000) none none = .ok s0 ∧ planCalls fmt [] exampleKnown = .ok (bs, ops) ∧
      let s := specOf (Budget.step (Budget.run s0 ops).1 .compute).1
      ∃ L L' : Unit → List (List (Candidate ℕ)),
        (∀ ω, evalCalls exampleLibrary.sigma s (fun _ => exampleEnv firstRng) Prod.fst data 0 exampleKnown bs = .ok (L ω) ∧
          evalCalls exampleLibrary.sigma s (fun _ => exampleEnv firstRng) Prod.fst (removeId Prod.fst u data) 0 exampleKnown bs
            = .ok (L' ω)) ∧
        ∀ (U : Finset (ℕ × ℕ)) (S : Finset (ℕ × ℕ)), ∀ A, MeasurableSet A →
          ∫⁻ ω, observedLaw exampleLibrary U S (L ω) A ∂Measure.dirac ()
            ≤ ENNReal.ofReal (Real.exp 1) * ∫⁻ ω, observedLaw exampleLibrary U S (L' ω) A ∂Measure.dirac ()
              + ENNReal.ofReal (1 / 1000) := by
  obtain ⟨s0, h0⟩ : ∃ s0, Budget.init 1 (1 / 1000) none none = .ok s0 := by
    norm_num [Budget.init]
  obtain ⟨bs, ops, hp, -, hc⟩ := C62_supported_pipeline_runs fmt (exampleKnown.map Call.strip) (by
      intro c hm
      obtain ⟨c', hm', rfl⟩ := List.mem_map.mp hm
      exact Call.strip_supported (exampleKnown_supported c' hm')) h0 (fun _ => by norm_num) ⟨by simp, by simp⟩
  rw [planCalls_strip] at hp
  refine ⟨s0, bs, ops, h0, hp, ?_⟩
  obtain ⟨L, L', h1, h2⟩ := C84_thresholded_public_partitions_are_private fmt exampleLibrary exampleLibrary_contract
    thresholdsKnownPartitions_laplace h0 exampleKnown exampleKnown_supported (fun _ => by norm_num) hp hc (Measure.dirac ())
    (fun _ _ => exampleEnv firstRng) (fun _ _ => exampleEnv_lawful _) Prod.fst data u (by
      intro c hc
      simp only [exampleKnown, List.mem_cons, List.not_mem_nil, or_false] at hc
      rcases hc with rfl | rfl <;>
      exact ⟨⟨fun h => by simp [exampleThresholded] at h, fun h => by simp [exampleThresholded] at h⟩,
          fun h => by simp [exampleThresholded] at h⟩)
  refine ⟨L, L', h1, fun U S A hA => ?_⟩
  have := ((h2 U S).2 A hA).1
  simpa using this

end PDP.EndToEnd
