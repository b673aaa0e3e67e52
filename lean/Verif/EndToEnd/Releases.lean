import Verif.EndToEnd.Documented

/-!
# What a whole pipeline releases (C63)

If no privacy id exceeds the bounds, then a pipeline releases exactly the documented aggregates, with noise calibrated to the
documented share of the budget.
-/

set_option linter.unusedSectionVars false

namespace PDP.EndToEnd

open PDP PDP.Engine
open PDP.Engine.Mechanism (Additive createThresholding computed)
open PDP.Engine.AddNoise (specOf)
open PDP.Budget (State Op MechType)

variable {R P K : Type} [DecidableEq P] [DecidableEq K]

/-! ### Specification -/

/-- The data is within the bounds of a call: no privacy id has more rows or partitions than allowed (unless the engine is told
not to enforce them), rows are in public partitions if they are said to be filtered already, and the bounds of sums include 0
(the value of an empty public partition). -/
def Call.Within (pid : R → P) (data : List R) : Call R K → Prop
  | .aggregate p pub key value =>
    (p.publicFiltered = true → ∀ ps, pub = some ps → ∀ r ∈ data, key r ∈ ps) ∧
    (p.boundsEnforced = false → WithinPartitionBounds p (relevant pub (extract pid key value data)) ∧
      WithinRowBounds p (relevant pub (extract pid key value data))) ∧
    (pub ≠ none → ∀ lo hi, p.minSum = some lo → p.maxSum = some hi → lo ≤ 0 ∧ 0 ≤ hi)
  | .select p key => ∀ u, ((data.filter fun r => pid r = u).map key).dedup.length ≤ p.maxPartitions

/-- The partitions that may be released: the public partitions, or those of the data. -/
def Call.candidates (data : List R) : Call R K → List K
  | .aggregate _ (some ps) _ _ => ps
  | .aggregate _ none key _ => data.map key
  | .select _ key => data.map key

/-- Number of privacy ids of a partition as used by partition selection; if the engine does not know the privacy ids, the
smallest number of ids that can have that many rows. -/
def selectionCount (p : Params) (rows : List (P × K × ℚ)) (k : K) : ℕ :=
  if p.boundsEnforced then ⌈((valuesIn k rows).length : ℚ) / (p.maxPerPartition.getD 0 : ℕ)⌉₊ else (usersIn k rows).length

/-- The decision on partition `k`. -/
noncomputable def Call.gate (ε δ : ℕ → ℝ) (b : Built) (pid : R → P) (data : List R) (k : K) : Call R K → Gate
  | .aggregate p pub key value =>
    if pub.isSome then .always
    else if p.postThresholding then
      .threshold (match p.noiseKind with | .laplace => .laplaceThresholding | .gaussian => .gaussianThresholding)
        (ε ((thSpecs b.parts).headD 0)) (δ ((thSpecs b.parts).headD 0)) (p.maxPartitions.getD 0 : ℕ) p.preThreshold
        (usersIn k (extract pid key value data)).length
    else .select p.strategy (ε (b.selection.getD 0)) (δ (b.selection.getD 0)) (p.maxPartitions.getD 0) p.preThreshold
      (selectionCount p (extract pid key value data) k)
  | .select p key => .select p.strategy (ε (b.selection.getD 0)) (δ (b.selection.getD 0)) p.maxPartitions p.preThreshold
      ((data.filter fun r => key r = k).map pid).dedup.length

/-- The noisy numbers of partition `k`. -/
noncomputable def Call.numbers (sigma : ℝ → ℝ → ℝ → ℝ) (ε δ : ℕ → ℝ) (b : Built) (pid : R → P) (data : List R) (k : K) :
    Call R K → List (Noisy K)
  | .aggregate p pub key value => (b.parts.flatMap (documented p (relevant pub (extract pid key value data)) k)).map
      (Documented.noisy sigma p.noiseKind ε δ k)
  | .select _ _ => []

/-- `L` are the documented partitions of a call with the documented decisions and numbers. -/
structure Call.Releases (sigma : ℝ → ℝ → ℝ → ℝ) (ε δ : ℕ → ℝ) (b : Built) (pid : R → P) (data : List R) (call : Call R K)
    (L : List (Candidate K)) : Prop where
  nodup : (L.map Candidate.key).Nodup
  keys : ∀ k, k ∈ L.map Candidate.key ↔ k ∈ call.candidates data
  gate : ∀ c ∈ L, c.gate = call.gate ε δ b pid data c.key
  numbers : ∀ c ∈ L, c.numbers = call.numbers sigma ε δ b pid data c.key

/-! ### One `aggregate` call -/

theorem divideAndRoundUp_ceil (a : ℕ) {b : ℕ} (hb : 1 ≤ b) : divideAndRoundUp a b = ⌈(a : ℚ) / b⌉₊ := by
  have hb' : (0 : ℚ) < b := by exact_mod_cast hb
  refine eq_of_forall_ge_iff fun c => ?_
  rw [Nat.ceil_le, div_le_iff₀ hb', divideAndRoundUp, Nat.div_le_iff_le_mul_add_pred (by omega)]
  have : (a : ℚ) ≤ c * b ↔ a ≤ b * c := by rw [mul_comm]; exact_mod_cast Iff.rfl
  rw [this]
  omega

theorem leaves_count {A : Type} {merge : A → A → A} (μ : A → ℕ) (hμ : ∀ a b, μ (merge a b) = μ a + μ b) (t : MergeTree A)
    {l : List A} (h : t.leaves.Perm l) (h1 : ∀ a ∈ l, μ a = 1) : μ (t.eval merge) = l.length := by
  rw [eval_hom merge μ hμ, (h.map _).sum_eq, List.map_congr_left h1]
  simp

theorem thresholdPart_head (σ : ℝ → ℝ → ℝ → ℝ) (p : Params) (parts : List Part)
    (a : Combiner.AccTuple (combinersOf σ p parts)) {i n : ℕ} (h : thresholdPart σ p parts a = some (i, n)) :
    (thSpecs parts).headD 0 = i := by
  induction parts with
  | nil => simp [thresholdPart] at h
  | cons part parts ih =>
    cases part with
    | thresholding j =>
      simp only [thresholdPart, Option.some.injEq] at h
      exact congrArg Prod.fst h
    | _ =>
      simp only [thresholdPart] at h
      have := ih a.2 h
      simpa [thSpecs] using this

theorem extract_keys (pid : R → P) (key : R → K) (value : R → ℚ) (data : List R) :
    (extract pid key value data).map (fun r => r.2.1) = data.map key := by
  unfold extract
  rw [List.map_map]; rfl

/-- **C63** (one `aggregate`). -/
theorem aggregate_releases {sigma : ℝ → ℝ → ℝ → ℝ} {s : Specs} {ε δ : ℕ → ℝ} {p : Params} {pub : Option (List K)}
    (hs : SupportedAggregate p pub) {fmt : ℚ → String} {rs rs' : List Request} {b : Built} {key : R → K} {value : R → ℚ}
    (hb : build fmt rs (.aggregate p pub key value) = (.ok b, rs')) (hbo : BuiltOk s ε δ p.noiseKind b)
    (env : Env K) (hB : env.backend.Lawful)
    (hcomb : ∀ {A : Type} (merge : A → A → A), LawfulCombine merge (env.combine merge)) (pid : R → P) (data : List R)
    (hw : (Call.aggregate p pub key value).Within pid data) :
    ∃ L, evalCall sigma s env pid b data (.aggregate p pub key value) = .ok L ∧
      (Call.aggregate p pub key value).Releases sigma ε δ b pid data L := by
  obtain ⟨hw1, hw2, hw3⟩ := hw
  have hf : p.publicFiltered = true → ∀ ps, pub = some ps → ∀ r ∈ extract pid key value data, r.2.1 ∈ ps := by
    intro h ps hps r hr
    obtain ⟨x, hx, rfl⟩ := List.mem_map.mp hr
    exact hw1 h ps hps x hx
  obtain ⟨hcreate, hsel⟩ : (∃ rs'', createCompound fmt p rs = (.ok b.parts, rs'')) ∧
      (selectsPrivately p pub = true ↔ b.selection.isSome) := by
    simp only [build] at hb
    rcases hx : createCompound fmt p rs with ⟨r, rs''⟩
    rw [hx] at hb
    rcases r with e | parts
    · simp at hb
    · dsimp only at hb
      by_cases hsp : selectsPrivately p pub = true
      · simp only [hsp, if_true, Prod.mk.injEq, Except.ok.injEq] at hb
        obtain ⟨rfl, -⟩ := hb
        exact ⟨⟨_, rfl⟩, by simp [hsp]⟩
      · simp only [hsp, Bool.false_eq_true, if_false, Prod.mk.injEq, Except.ok.injEq] at hb
        obtain ⟨rfl, -⟩ := hb
        exact ⟨⟨_, rfl⟩, by simp [hsp]⟩
  obtain ⟨rs'', hcreate⟩ := hcreate
  obtain ⟨hok, hth⟩ := parts_ok_any hs.any hcreate
  obtain ⟨out, entries, h1, h2, h3, h4, h5, h6, h7, h8⟩ := output_entries_keys env.backend hB p hs.bounds
    (combinersOf sigma p b.parts) (env.combine (Combiner.compound _).merge) (hcomb _) (fun _ _ => true) pub
    (extract pid key value data) hf (fun h => (hw2 h).1) (fun h _ => (hw2 h).2)
  have hnum : ∀ e ∈ out, evalParts sigma s p e.1 b.parts e.2.2
      = .ok ((Call.aggregate p pub key value).numbers sigma ε δ b pid data e.1) := by
    intro e he
    refine (evalParts_of sigma s p e.1 b.parts e.2 (fun part => (documented p (relevant pub (extract pid key value data)) e.1
      part).map (Documented.noisy sigma p.noiseKind ε δ e.1)) ?_).trans ?_
    · intro i part v hv hpart hi
      exact part_numbers env.backend hB hs.bounds (combinersOf sigma p b.parts) (hcomb _) _ hf hw2 hw3 h1 e he part
        (hok part hpart) (hbo.parts part hpart) i v hv hi
    · simp only [Call.numbers, List.map_flatMap]
  have hleaf : pub = none → ∀ e ∈ out, ∀ μ : (Combiner.compound (combinersOf sigma p b.parts)).Acc → ℕ,
      (∀ x y, μ ((Combiner.compound (combinersOf sigma p b.parts)).merge x y) = μ x + μ y) →
      (∀ vs, vs ≠ [] → μ ((Combiner.compound (combinersOf sigma p b.parts)).create vs) = 1) →
      μ e.2 = (entries.filter fun x => x.1.2 = e.1).length := by
    intro hpub e he μ hμ1 hμ2
    obtain ⟨t, n, hn, ht1, ht2⟩ := h8 e he
    rw [hn hpub, List.replicate_zero, List.append_nil] at ht1
    rw [ht2, leaves_count μ hμ1 t ht1, List.length_map]
    intro a ha
    obtain ⟨x, hx, rfl⟩ := List.mem_map.mp ha
    exact hμ2 _ (h3 x (List.mem_filter.mp hx).1)
  have husers : p.boundsEnforced = false → ∀ k, (entries.filter fun x => x.1.2 = k).length
      = (usersIn k (relevant pub (extract pid key value data))).length := by
    intro h k
    have := (users_perm h2 (h4 h) h3 k).length_eq
    rwa [List.length_map] at this
  have hrows : p.boundsEnforced = true → ∀ k, (entries.filter fun x => x.1.2 = k).length
      = (valuesIn k (relevant pub (extract pid key value data))).length := by
    intro h k
    have := entries_sum_rows (fun _ : ℚ => (1 : ℕ)) k h2
    rw [List.map_const', List.sum_replicate, smul_eq_mul, mul_one] at this
    rw [← this, List.map_congr_left (g := fun _ => 1)]
    · simp
    · intro x hx
      have := h5 h x (List.mem_filter.mp hx).1
      simp [this]
  have hgate : ∀ e ∈ out, gateOf sigma s p b e.2 = .ok ((Call.aggregate p pub key value).gate ε δ b pid data e.1) := by
    intro e he
    cases pub with
    | some ps =>
      have hpt : p.postThresholding = false := by
        by_contra h
        exact absurd (hs.thresholding (by simpa using h)).1 (by simp)
      have hselN : b.selection = none := by
        have : selectsPrivately p (some ps) = false := by simp [selectsPrivately]
        rw [this] at hsel
        simpa using hsel
      simp only [gateOf, hselN, hpt, Bool.false_eq_true, if_false, Call.gate, Option.isSome_some, if_true]
    | none =>
      obtain ⟨hmc, hpf⟩ := hs.hidden rfl
      obtain ⟨l0, linf, hl0, hlinf, -, hl0p, hlinfp⟩ : ∃ l0 linf, 1 ≤ l0 ∧ 1 ≤ linf ∧ p.maxContributions = none ∧
          p.maxPartitions = some l0 ∧ p.maxPerPartition = some linf := by
        rcases hs.bounds with ⟨m, -, q, -⟩ | ⟨l0, linf, a1, a2, a3, a4, a5⟩
        · rw [hmc] at q; cases q
        · exact ⟨l0, linf, a1, a2, a3, a4, a5⟩
      cases hpt : p.postThresholding with
      | true =>
        have hselN : b.selection = none := by
          have : selectsPrivately p (none : Option (List K)) = false := by simp [selectsPrivately, hpt]
          rw [this] at hsel
          simpa using hsel
        obtain ⟨i, hi, μ, hμ1, hμ2, hμ3⟩ := thresholdPart_spec sigma p b.parts (hth hpt)
        have hsi := hbo.parts _ hi i (by simp [Part.specs])
        have hbe := hs.ids (hs.thresholding hpt).2
        have hμ := hleaf rfl e he (fun a => μ a.2) (fun x y => hμ2 x.2 y.2) (fun vs hvs => hμ3 vs hvs)
        rw [husers hbe] at hμ
        obtain ⟨sn, hsn, hl⟩ : ∃ sn, sensPrivacyIdCount p = .ok sn ∧ sn.l0 = some (l0 : ℝ) := by
          unfold sensPrivacyIdCount
          rw [hmc, hl0p]
          have h1 : (0 : ℝ) < l0 := by exact_mod_cast hl0
          simp [mkSens, positiveOrNone, h1]
        have hhead := thresholdPart_head sigma p b.parts e.2.2 (hμ1 e.2.2)
        simp only [gateOf, hselN, hpt, if_true, hμ1, thresholdGate, hsn, Call.gate, Option.isSome_none, Bool.false_eq_true,
          if_false, hhead, hl0p, Option.getD_some]
        have hμ' : μ e.2.2 = (usersIn e.1 (extract pid key value data)).length := hμ
        rw [hμ', hsi.eq]
        cases hk : p.noiseKind with
        | laplace =>
          have : createThresholding ⟨toMechType (Part.mechanism .laplace (.thresholding i)), none, some (ε i), some (δ i)⟩ sn
              = .ok (.laplaceThresholding, ε i, δ i, sn.l0) := rfl
          rw [this, hl]
        | gaussian =>
          have : createThresholding ⟨toMechType (Part.mechanism .gaussian (.thresholding i)), none, some (ε i), some (δ i)⟩ sn
              = .ok (.gaussianThresholding, ε i, δ i, sn.l0) := rfl
          rw [this, hl]
      | false =>
        obtain ⟨i, hi⟩ : ∃ i, b.selection = some i := by
          have : selectsPrivately p (none : Option (List K)) = true := by simp [selectsPrivately, hpt, hpf hpt]
          exact Option.isSome_iff_exists.mp (hsel.mp this)
        have hsi := hbo.selection i hi
        have hcount := hleaf rfl e he Combiner.rowCount (fun _ _ => rfl) (fun _ _ => rfl)
        have hn : ∃ m, maxRowsPerId p = .ok m ∧ divideAndRoundUp (Combiner.rowCount e.2) m
            = selectionCount p (extract pid key value data) e.1 := by
          cases hbe : p.boundsEnforced with
          | false =>
            refine ⟨1, maxRows_one hbe, ?_⟩
            rw [divideAndRoundUp_one, hcount, husers hbe]
            simp [selectionCount, hbe, relevant]
          | true =>
            refine ⟨linf, by simp [maxRowsPerId, hbe, hmc, hlinfp, natArg], ?_⟩
            rw [divideAndRoundUp_ceil _ hlinf, hcount, hrows hbe]
            simp [selectionCount, hbe, relevant, hlinfp]
        obtain ⟨m, hm, hn⟩ := hn
        simp only [gateOf, hi, hm, hl0p, natArg, hn, selectGate, hsi.eq, computed, Call.gate, Option.isSome_none,
          Bool.false_eq_true, if_false, hpt, Option.getD_some]
  have hcand : ∀ e ∈ out, candidate sigma s p b e = .ok ⟨e.1, (Call.aggregate p pub key value).gate ε δ b pid data e.1,
      (Call.aggregate p pub key value).numbers sigma ε δ b pid data e.1⟩ := by
    intro e he
    unfold candidate
    rw [hgate e he, hnum e he]
  refine ⟨out.map fun e => ⟨e.1, (Call.aggregate p pub key value).gate ε δ b pid data e.1,
      (Call.aggregate p pub key value).numbers sigma ε δ b pid data e.1⟩, ?_, ?_, ?_, ?_, ?_⟩
  · simp only [evalCall]
    rw [h1]
    exact mapM_ok' _ _ _ hcand
  · rw [List.map_map]; exact h6
  · intro k
    have hk := h7 (fun _ _ => rfl) k
    rw [List.map_map]
    refine hk.trans ?_
    have hent : (∃ x ∈ entries, x.1.2 = k) ↔ k ∈ (relevant pub (extract pid key value data)).map fun r => r.2.1 := by
      rw [← (h2.map fun r => r.2.1).mem_iff]
      simp only [rowsBehind, List.mem_map, List.mem_flatMap]
      constructor
      · rintro ⟨x, hx, rfl⟩
        obtain ⟨v, hv⟩ := List.exists_mem_of_ne_nil _ (h3 x hx)
        exact ⟨(x.1.1, x.1.2, v), ⟨x, hx, v, hv, rfl⟩, rfl⟩
      · rintro ⟨r, ⟨x, hx, v, hv, rfl⟩, rfl⟩
        exact ⟨x, hx, rfl⟩
    rw [hent]
    cases pub with
    | none =>
      simp only [relevant, extract_keys, Call.candidates]
      simp
    | some ps =>
      simp only [Call.candidates, Option.some.injEq, exists_eq_left', or_iff_right_iff_imp]
      intro h
      obtain ⟨r, hr, rfl⟩ := List.mem_map.mp h
      simpa using (List.mem_filter.mp hr).2
  · intro c hc
    obtain ⟨e, -, rfl⟩ := List.mem_map.mp hc
    rfl
  · intro c hc
    obtain ⟨e, -, rfl⟩ := List.mem_map.mp hc
    rfl

/-! ### One `select_partitions` call -/

theorem boundedPairs_perm (B : Backend) (hB : B.Lawful) {l0 : ℕ} (hl : 1 ≤ l0) (col : List (P × K))
    (h : ∀ u, ((col.filter fun e => e.1 = u).map Prod.snd).dedup.length ≤ l0) :
    ((B.groupByKey col).flatMap (sampleUnique B l0)).Perm col.dedup := by
  obtain ⟨h1, h2, h3⟩ := boundedPairs_spec B hB l0 hl col
  generalize (B.groupByKey col).flatMap (sampleUnique B l0) = pairs at h1 h2 h3 ⊢
  rw [List.perm_ext_iff_of_nodup h1 (List.nodup_dedup _)]
  intro e
  rw [List.mem_dedup]
  refine ⟨h2 e, fun he => ?_⟩
  have hv : valuesOf e.1 col = (col.filter fun x => x.1 = e.1).map Prod.snd := by
    unfold valuesOf
    rfl
  have hsub : ((pairs.filter fun x => x.1 = e.1).map Prod.snd).Subperm
      ((col.filter fun x => x.1 = e.1).map Prod.snd).dedup := by
    refine List.subperm_of_subset (nodup_of_user h1 e.1) ?_
    intro k hk
    obtain ⟨x, hx, rfl⟩ := List.mem_map.mp hk
    obtain ⟨hx1, hx2⟩ := List.mem_filter.mp hx
    rw [List.mem_dedup]
    exact List.mem_map.mpr ⟨x, List.mem_filter.mpr ⟨h2 x hx1, hx2⟩, rfl⟩
  have hperm := hsub.perm_of_length_le (by
    have := h e.1
    rw [List.length_map, h3 e.1, hv]; omega)
  have : e.2 ∈ (pairs.filter fun x => x.1 = e.1).map Prod.snd := by
    rw [hperm.mem_iff, List.mem_dedup]
    exact List.mem_map.mpr ⟨e, List.mem_filter.mpr ⟨he, by simp⟩, rfl⟩
  obtain ⟨x, hx, hxe⟩ := List.mem_map.mp this
  obtain ⟨hx1, hx2⟩ := List.mem_filter.mp hx
  rwa [show e = x from Prod.ext (of_decide_eq_true hx2).symm hxe.symm]

theorem users_count (col : List (P × K)) (k : K) :
    (col.dedup.map Prod.snd).count k = ((col.filter fun e => e.2 = k).map Prod.fst).dedup.length := by
  rw [List.count_eq_length_filter, List.filter_map, List.length_map]
  have hp : ((col.dedup.filter ((fun x => x == k) ∘ Prod.snd)).map Prod.fst).Perm
      ((col.filter fun e => e.2 = k).map Prod.fst).dedup := by
    rw [List.perm_ext_iff_of_nodup _ (List.nodup_dedup _)]
    · intro u
      simp [List.mem_dedup]
    · refine ((List.nodup_dedup _).filter _).map_on ?_
      intro x hx y hy hxy
      have h1 : x.2 = k := by simpa using (List.mem_filter.mp hx).2
      have h2 : y.2 = k := by simpa using (List.mem_filter.mp hy).2
      exact Prod.ext hxy (h1.trans h2.symm)
  rw [← hp.length_eq, List.length_map]

theorem select_releases {sigma : ℝ → ℝ → ℝ → ℝ} {s : Specs} {ε δ : ℕ → ℝ} {p : PDP.Private.SelectParams} {kind : NoiseKind}
    (hl : 1 ≤ p.maxPartitions) {fmt : ℚ → String} {rs rs' : List Request} {b : Built} {key : R → K}
    (hb : build fmt rs (.select p key) = (.ok b, rs')) (hbo : BuiltOk s ε δ kind b)
    (env : Env K) (hB : env.backend.Lawful)
    (hcomb : ∀ {A : Type} (merge : A → A → A), LawfulCombine merge (env.combine merge)) (pid : R → P) (data : List R)
    (hw : (Call.select p key).Within pid data) :
    ∃ L, evalCall sigma s env pid b data (.select p key) = .ok L ∧
      (Call.select p key).Releases sigma ε δ b pid data L := by
  simp only [build, Prod.mk.injEq, Except.ok.injEq] at hb
  obtain ⟨rfl, -⟩ := hb
  generalize hi : (requestBudget rs Engine.Mechanism.generic 1).1 = i at hbo ⊢
  have hsi := hbo.selection i rfl
  have hperm := boundedPairs_perm env.backend hB hl (data.map fun r => (pid r, key r)) (by
    intro u
    have := hw u
    rw [List.filter_map, List.map_map]
    exact this)
  have hC := hcomb (Combiner.compound ([] : List (Combiner Unit))).merge
    (((env.backend.groupByKey (data.map fun r => (pid r, key r))).flatMap (sampleUnique env.backend p.maxPartitions)).map
      fun e => (e.2, (Combiner.compound ([] : List (Combiner Unit))).create []))
  refine ⟨(selectAccumulators env.backend (env.combine (Combiner.compound _).merge) p.maxPartitions
        (data.map fun r => (pid r, key r))).map fun e =>
        (⟨e.1, (Call.select p key).gate ε δ ⟨[], some i⟩ pid data e.1, []⟩ : Candidate K), ?_, ?_, ?_, ?_, ?_⟩
  · simp only [evalCall]
    apply mapM_ok'
    intro e he
    have hn : divideAndRoundUp (Combiner.rowCount e.2) 1 = ((data.filter fun r => key r = e.1).map pid).dedup.length := by
      rw [divideAndRoundUp_one, rowCount_combined _ _ _ hC (by
        intro e he
        obtain ⟨x, -, rfl⟩ := List.mem_map.mp he
        rfl) e he, valuesOf_pairs, (hperm.map _).count_eq, users_count, List.filter_map, List.map_map]
      rfl
    simp only [selectGate, hsi.eq, computed, hn]
    rfl
  · rw [List.map_map]; exact hC.nodup
  · intro k
    rw [List.map_map]
    refine (hC.keys k).trans ?_
    rw [List.map_map]
    show k ∈ List.map Prod.snd _ ↔ _
    rw [(hperm.map _).mem_iff]
    simp [Call.candidates, List.mem_dedup]
  · intro c hc
    obtain ⟨e, -, rfl⟩ := List.mem_map.mp hc
    rfl
  · intro c hc
    obtain ⟨e, -, rfl⟩ := List.mem_map.mp hc
    rfl

/-! ### All calls -/

theorem calls_release {sigma : ℝ → ℝ → ℝ → ℝ} {s : Specs} {ε δ : Call R K × Built → ℕ → ℝ} {fmt : ℚ → String}
    (env : ℕ → Env K) (hB : ∀ j, (env j).backend.Lawful)
    (hcomb : ∀ j {A : Type} (merge : A → A → A), LawfulCombine merge ((env j).combine merge)) (pid : R → P) (data : List R)
    {cs : List (Call R K)} (hs : ∀ c ∈ cs, c.Supported) (hw : ∀ c ∈ cs, c.Within pid data) :
    ∀ (j : ℕ) {rs : List Request} {bs ops}, planCalls fmt rs cs = .ok (bs, ops) →
      (∀ x ∈ cs.zip bs, BuiltOk s (ε x) (δ x) x.1.kind x.2) →
      ∃ L, evalCalls sigma s env pid data j cs bs = .ok L ∧
        List.Forall₂ (fun x l => Call.Releases sigma (ε x) (δ x) x.2 pid data x.1 l) (cs.zip bs) L := by
  induction cs with
  | nil =>
    intro j rs bs ops h _
    simp only [planCalls, Except.ok.injEq, Prod.mk.injEq] at h
    obtain ⟨rfl, rfl⟩ := h
    exact ⟨[], rfl, .nil⟩
  | cons c cs ih =>
    intro j rs bs ops h hbo
    have hc := hs c (by simp)
    rcases hx : build fmt rs c with ⟨r, rs'⟩
    rw [planCalls, hx] at h
    rcases r with e | b
    · simp at h
    · dsimp only at h
      rcases hp : planCalls fmt rs' cs with e | ⟨bs', ops'⟩
      · rw [hp] at h; simp at h
      · rw [hp] at h
        simp only [Except.ok.injEq, Prod.mk.injEq] at h
        obtain ⟨rfl, rfl⟩ := h
        have hb := hbo (c, b) (by simp)
        have hw' := hw c (by simp)
        obtain ⟨x, h1, h2⟩ : ∃ x, evalCall sigma s (env j) pid b data c = .ok x ∧
            c.Releases sigma (ε (c, b)) (δ (c, b)) b pid data x := by
          cases c with
          | aggregate p pub key value => exact aggregate_releases hc hx hb (env j) (hB j) (hcomb j) pid data hw'
          | select p key => exact select_releases hc.1 hx hb (env j) (hB j) (hcomb j) pid data hw'
        obtain ⟨L, g1, g2⟩ := ih (fun c hc => hs c (by simp [hc])) (fun c hc => hw c (by simp [hc])) (j + 1) hp
          (fun x hx => hbo x (by simp [hx]))
        exact ⟨x :: L, by simp only [evalCalls, h1, g1], .cons h2 g2⟩

/-- Epsilon of the budget `i` of a call: its part of the total. -/
def shareEps (e : ℚ) (cs : List (Call R K)) (x : Call R K × Built) (i : ℕ) : ℚ :=
  e * budgetPart x i / (cs.map Call.weight).sum

/-- Delta of the budget `i` of a call: its part among the budgets that need a delta. -/
def shareDelta (d : ℚ) (cs : List (Call R K)) (bs : List Built) (x : Call R K × Built) (i : ℕ) : ℚ :=
  let all := (cs.zip bs).flatMap fun x => x.2.specs.map fun i => (x, i)
  if needsDelta x i then
    d * budgetPart x i / (((all.filter fun y => needsDelta y.1 y.2).map fun y => budgetPart y.1 y.2).sum) else 0

/-- **C63** (shares of the calls).  The epsilons of the budgets of one call add up to `e * weight / total`, where `total` is the sum
of the weights of all calls. -/
theorem C63_each_call_gets_its_share (fmt : ℚ → String) (cs : List (Call R K)) (hs : ∀ c ∈ cs, c.Supported)
    (hm : ∀ p pub key value, Call.aggregate p pub key value ∈ cs → p.metrics ≠ []) {e d : ℚ} {num ws s0}
    (h0 : Budget.init e d num ws = .ok s0) (hd : (∃ c ∈ cs, c.NeedsDelta) → 0 < d) (ha : AnnouncedCalls num ws cs)
    {bs ops} (hp : planCalls fmt [] cs = .ok (bs, ops)) :
    ∃ E : ℕ → ℚ, ∀ x ∈ cs.zip bs,
      (∀ i ∈ x.2.specs, Budget.seesEps (Budget.step (Budget.run s0 ops).1 .compute).1 i (E i)) ∧
      (x.2.specs.map E).sum = e * x.1.weight / (cs.map Call.weight).sum := by
  have hshare := C63_budget_shares fmt cs hs hm h0 hd ha hp
  obtain ⟨-, hne, hpos, -⟩ := plan_registered hs hm hp
  classical
  refine ⟨fun i => if h : ∃ q, Budget.seesEps (Budget.step (Budget.run s0 ops).1 .compute).1 i q then h.choose else 0,
    fun x hx => ?_⟩
  have key : ∀ i ∈ x.2.specs, (if h : ∃ q, Budget.seesEps (Budget.step (Budget.run s0 ops).1 .compute).1 i q then h.choose
      else 0) = e * budgetPart x i / (cs.map Call.weight).sum := by
    intro i hi
    have h : ∃ q, Budget.seesEps (Budget.step (Budget.run s0 ops).1 .compute).1 i q := ⟨_, (hshare x hx i hi).1⟩
    rw [dif_pos h]
    have h1 := h.choose_spec
    have h2 := (hshare x hx i hi).1
    unfold Budget.seesEps at h1 h2
    rw [h1] at h2
    exact Budget.Out.value.inj h2
  refine ⟨fun i hi => ?_, ?_⟩
  · beta_reduce; rw [key i hi]; exact (hshare x hx i hi).1
  · rw [List.map_congr_left key, ← budgetPart_sum (hne x.2 (List.of_mem_zip hx).2) fun i hi => (hpos x hx i hi).1]
    rw [← List.sum_map_mul_left, div_eq_mul_inv, ← List.sum_map_mul_right]
    rfl

theorem planned_parts {fmt : ℚ → String} {cs : List (Call R K)} : ∀ {rs : List Request} {bs ops},
    planCalls fmt rs cs = .ok (bs, ops) → ∀ p pub key value b, (Call.aggregate p pub key value, b) ∈ cs.zip bs →
      ∃ rs1, (createCompound fmt p rs1).1 = .ok b.parts := by
  induction cs with
  | nil => intro rs bs ops _ p pub key value b hb; simp at hb
  | cons c cs ih =>
    intro rs bs ops h p pub key value b' hb'
    rcases hx : build fmt rs c with ⟨r, rs'⟩
    rw [planCalls, hx] at h
    rcases r with e | b
    · simp at h
    · dsimp only at h
      rcases hp : planCalls fmt rs' cs with e | ⟨bs', ops'⟩
      · rw [hp] at h; simp at h
      · rw [hp] at h
        simp only [Except.ok.injEq, Prod.mk.injEq] at h
        obtain ⟨rfl, rfl⟩ := h
        rw [List.zip_cons_cons, List.mem_cons] at hb'
        rcases hb' with hb' | hb'
        · obtain ⟨rfl, rfl⟩ := Prod.mk.inj hb'
          obtain ⟨⟨rs1, h1⟩, -⟩ := build_aggregate hx
          exact ⟨rs, by rw [h1]⟩
        · exact ih hp p pub key value b' hb'

/-- **C63** (released metrics).  The names of the metrics released by each `aggregate` call of a pipeline are the requested
ones, each once. -/
theorem C63_requested_metrics_are_released (fmt : ℚ → String) (hf : ∀ a b, fmt a = fmt b → a = b) (cs : List (Call R K))
    {bs ops} (hp : planCalls fmt [] cs = .ok (bs, ops)) :
    ∀ p pub key value b, (Call.aggregate p pub key value, b) ∈ cs.zip bs →
      ∃ names, releasedNames fmt b.parts = .ok names ∧ names.Nodup ∧ ∀ n, n ∈ names ↔ ∃ m ∈ p.metrics, m.name fmt = n := by
  intro p pub key value b hb
  obtain ⟨rs1, h⟩ := planned_parts hp p pub key value b hb
  exact (C21_released_names_are_the_requested_metrics fmt hf p rs1).2 _ h

/-- **C63** (finding).  A pipeline with one call that computes COUNT for private partitions: the weight of the only call should not
matter, but partition selection gets `1 / (w + 1)` and COUNT `w / (w + 1)` of epsilon, where `w` is the weight of the call. -/
theorem C63_weight_shifts_selection (fmt : ℚ → String) (p : Params) (key : R → K) (value : R → ℚ)
    (hs : (Call.aggregate p none key value).Supported) (hm : p.metrics = [.count]) (ht : p.postThresholding = false) {e d : ℚ}
    {s0} (h0 : Budget.init e d none none = .ok s0) (hd : 0 < d) :
    ∃ bs ops, planCalls fmt [] [Call.aggregate p none key value] = .ok (bs, ops) ∧
      bs = [⟨[.count 0], some 1⟩] ∧
      Budget.seesEps (Budget.step (Budget.run s0 ops).1 .compute).1 0 (e * (p.budgetWeight / (p.budgetWeight + 1))) ∧
      Budget.seesEps (Budget.step (Budget.run s0 ops).1 .compute).1 1 (e * (1 / (p.budgetWeight + 1))) := by
  have hw : 0 < p.budgetWeight := (hs.weight : 0 < (Call.aggregate p none key value).weight)
  obtain ⟨bs, ops, hp, -⟩ := C62_supported_pipeline_runs fmt [Call.aggregate p none key value]
    (by simpa using hs) h0 (fun _ => hd) ⟨by simp, by simp⟩
  have hb : bs = [⟨[.count 0], some 1⟩] := by
    have hc : createCompound fmt p [] = (.ok [.count 0], [⟨p.noiseKind.mechanism, p.budgetWeight⟩]) := by
      simp [createCompound, scalarParts, privacyIdPart, vectorPart, quantilePart, hm, requestBudget, Metric.percentile?,
        Part.names]
    have hpf : p.publicFiltered = false := ((show SupportedAggregate p (none : Option (List K)) from hs).hidden rfl).2 ht
    simp only [planCalls, build, hc, selectsPrivately, ht, hpf, requestBudget, Option.isNone_none, Bool.not_false, Bool.and_self,
      if_true, Except.ok.injEq, Prod.mk.injEq] at hp
    exact hp.1.symm
  have h := C63_budget_shares fmt [Call.aggregate p none key value] (by simpa using hs)
    (by
      intro p' pub key' value' h'
      simp only [List.mem_singleton, Call.aggregate.injEq] at h'
      rw [h'.1, hm]; simp) h0 (fun _ => hd) ⟨by simp, by simp⟩ hp
  subst hb
  refine ⟨_, ops, hp, rfl, ?_, ?_⟩
  · have h1 := (h (Call.aggregate p none key value, ⟨[.count 0], some 1⟩) (by simp) 0 (by simp [Built.specs, Part.specs])).1
    convert h1 using 1
    simp [budgetPart, innerWeight, Built.specs, Part.specs, Call.weight]
    field_simp
  · have h1 := (h (Call.aggregate p none key value, ⟨[.count 0], some 1⟩) (by simp) 1 (by simp [Built.specs, Part.specs])).1
    convert h1 using 1
    simp [budgetPart, innerWeight, Built.specs, Part.specs, Call.weight]
    field_simp

/-- The budgets of all calls, as they are published. -/
theorem planned_budgets (fmt : ℚ → String) (cs : List (Call R K)) (hs : ∀ c ∈ cs, c.Supported)
    (hm : ∀ p pub key value, Call.aggregate p pub key value ∈ cs → p.metrics ≠ []) {e d : ℚ} {num ws s0}
    (h0 : Budget.init e d num ws = .ok s0) (hd : (∃ c ∈ cs, c.NeedsDelta) → 0 < d) (ha : AnnouncedCalls num ws cs) :
    ∃ bs ops, planCalls fmt [] cs = .ok (bs, ops) ∧ bs.length = cs.length ∧
      (Budget.step (Budget.run s0 ops).1 .compute).2 = .unit ∧
      ∀ x ∈ cs.zip bs, BuiltOk (specOf (Budget.step (Budget.run s0 ops).1 .compute).1) (fun i => (shareEps e cs x i : ℝ))
        (fun i => (shareDelta d cs bs x i : ℝ)) x.1.kind x.2 := by
  obtain ⟨bs, ops, hp, -, hc⟩ := C62_supported_pipeline_runs fmt cs hs h0 hd ha
  obtain ⟨hlen, -⟩ := plan_registered hs hm hp
  have hshare := C63_budget_shares fmt cs hs hm h0 hd ha hp
  obtain ⟨hplain, new, hreq, hspecs, hrq, hnd⟩ := planCalls_spec hs hp
  obtain ⟨ε, δ, hok, -, -⟩ := budgets_published hplain hreq h0 (fun r hr hne => hd (hnd r hr hne)) hc
  have hval : ∀ x ∈ cs.zip bs, ∀ i ∈ x.2.specs, ∀ m, SpecOk (specOf (Budget.step (Budget.run s0 ops).1 .compute).1) ε δ i m →
      SpecOk (specOf (Budget.step (Budget.run s0 ops).1 .compute).1) (fun i => (shareEps e cs x i : ℝ))
        (fun i => (shareDelta d cs bs x i : ℝ)) i m := by
    intro x hx i hi m hm
    obtain ⟨g1, g2⟩ := hshare x hx i hi
    obtain ⟨m1, a1, a2⟩ := Budget.seesEps_iff.mp g1
    obtain ⟨m2, b1, b2⟩ := Budget.seesDelta_iff.mp g2
    obtain rfl : m1 = m2 := by rw [a1] at b1; exact Option.some.inj b1
    have heq := hm.eq
    unfold specOf at heq
    rw [a1] at heq
    dsimp only at heq
    rw [a2, b2] at heq
    simp only [Option.map_some, Engine.Mechanism.Spec.mk.injEq, Option.some.injEq, true_and] at heq
    have he : ((shareEps e cs x i : ℚ) : ℝ) = ε i := heq.2.1
    have hd' : ((shareDelta d cs bs x i : ℚ) : ℝ) = δ i := heq.2.2
    exact ⟨by rw [he, hd']; exact hm.eq, by rw [he]; exact hm.eps, by rw [hd']; exact hm.delta,
      fun h => by rw [hd']; exact hm.pos h⟩
  have hbo : ∀ x ∈ cs.zip bs, BuiltOk (specOf (Budget.step (Budget.run s0 ops).1 .compute).1) (fun i => (shareEps e cs x i : ℝ))
      (fun i => (shareDelta d cs bs x i : ℝ)) x.1.kind x.2 := by
    intro x hx
    have h := hrq x hx
    rw [List.nil_append] at h
    refine ⟨fun part hpart i hi => ?_, fun i hi => ?_, h.nodup⟩
    · obtain ⟨w, hw⟩ := h.parts part hpart i hi
      exact hval x hx i (List.mem_append_left _ (List.mem_flatMap.mpr ⟨part, hpart, hi⟩)) _ (hok i _ hw)
    · obtain ⟨w, hw⟩ := h.selection i hi
      exact hval x hx i (List.mem_append_right _ (by simp [hi])) _ (hok i _ hw)
  exact ⟨bs, ops, hp, by omega, hc, hbo⟩

/-- **C63.**  A pipeline of supported `aggregate` and `select_partitions` calls, each with at least one metric, on one naive
accountant with total budget `(e, d)`: there is no exception, and every call releases what is documented.  If the data is
within the bounds, then for any backend, any random choices and any order of merging, the partitions that may be released are
the public ones or those of the data; the decisions get the true numbers of privacy ids; and the released numbers are the exact
aggregates (with clamped values) plus noise.  Noise and decisions are calibrated to the share of the budget given by the
weights of the calls, not to less and not to more. -/
theorem C63_pipeline_releases_what_is_documented (fmt : ℚ → String) (sigma : ℝ → ℝ → ℝ → ℝ) (cs : List (Call R K))
    (hs : ∀ c ∈ cs, c.Supported)
    (hm : ∀ p pub key value, Call.aggregate p pub key value ∈ cs → p.metrics ≠ []) {e d : ℚ} {num ws s0}
    (h0 : Budget.init e d num ws = .ok s0) (hd : (∃ c ∈ cs, c.NeedsDelta) → 0 < d) (ha : AnnouncedCalls num ws cs)
    (env : ℕ → Env K) (hB : ∀ j, (env j).backend.Lawful)
    (hcomb : ∀ j {A : Type} (merge : A → A → A), LawfulCombine merge ((env j).combine merge)) (pid : R → P) (data : List R)
    (hw : ∀ c ∈ cs, c.Within pid data) :
    ∃ bs ops, planCalls fmt [] cs = .ok (bs, ops) ∧ bs.length = cs.length ∧
      (Budget.step (Budget.run s0 ops).1 .compute).2 = .unit ∧
      ∃ L, evalCalls sigma (specOf (Budget.step (Budget.run s0 ops).1 .compute).1) env pid data 0 cs bs = .ok L ∧
        List.Forall₂ (fun x l => Call.Releases sigma (fun i => (shareEps e cs x i : ℝ)) (fun i => (shareDelta d cs bs x i : ℝ))
          x.2 pid data x.1 l) (cs.zip bs) L := by
  obtain ⟨bs, ops, hp, hlen, hc, hbo⟩ := planned_budgets fmt cs hs hm h0 hd ha
  obtain ⟨L, g1, g2⟩ := calls_release (sigma := sigma) (ε := fun x i => (shareEps e cs x i : ℝ))
    (δ := fun x i => (shareDelta d cs bs x i : ℝ)) env hB hcomb pid data hs hw 0 hp hbo
  exact ⟨bs, ops, hp, hlen, hc, L, g1, g2⟩

end PDP.EndToEnd
