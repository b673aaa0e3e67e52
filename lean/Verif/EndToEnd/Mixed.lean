import Verif.EndToEnd.Groups

/-!
# Pipelines that also add noise to aggregated data with `add_dp_noise` (C73): model and specification
-/

set_option linter.unusedSectionVars false

namespace PDP.EndToEnd

open PDP PDP.Engine MeasureTheory
open PDP.Engine.Mechanism (Additive createAdditive)
open PDP.Engine.AddNoise (specOf)
open PDP.Budget (State Op MechType)
open PDP.Approx (Indist)

variable {R P K : Type} [DecidableEq P] [DecidableEq K]

/-! ### Model -/

/-- A call of `aggregate` or `select_partitions`, or of `add_dp_noise` (`dp_engine.py:553-609`) on a collection of (partition key,
value) that the user has computed of the data. -/
inductive Step (R K : Type) where
  | call (c : Call R K)
  | noise (params : AddNoise.Params) (column : List R → List (K × ℚ))

/-- `params.budget_weight`. -/
def Step.weight : Step R K → ℚ
  | .call c => c.weight
  | .noise p _ => p.weight

/-- What a step has built; for `add_dp_noise` the position of its budget and its sensitivities. -/
inductive BuiltStep where
  | call (b : Built)
  | noise (spec : ℕ) (sens : Sens)

/-- The budgets of a step. -/
def BuiltStep.specs : BuiltStep → List ℕ
  | .call b => b.specs
  | .noise i _ => [i]

/-- What `add_dp_noise` calls on the accountant (`dp_engine.py:580-582, 607-608`), in no scope; `request_budget` with its default
arguments. -/
def noiseOps (p : AddNoise.Params) : List Op :=
  [.request (AddNoise.mechType p.kind) 1 1 1 none, .aggregation p.weight]

/-- All steps, and all calls that they make on the accountant.  `rs` are the requests made before. -/
noncomputable def planSteps (fmt : ℚ → String) (rs : List Request) :
    List (Step R K) → Except Engine.Err (List BuiltStep × List Op)
  | [] => .ok ([], [])
  | .call c :: cs =>
    match build fmt rs c with
    | (.error e, _) => .error e
    | (.ok b, rs') =>
      match planSteps fmt rs' cs with
      | .error e => .error e
      | .ok (bs, ops) => .ok (.call b :: bs, callOps c.weight (rs'.drop rs.length) ++ ops)
  | .noise p _ :: cs =>
    match mkSens (p.l0.map fun x : ℚ => (x : ℝ)) (p.linf.map fun x : ℚ => (x : ℝ)) none none with
    | .error e => .error e
    | .ok sens =>
      match planSteps fmt (requestBudget rs p.kind.mechanism 1).2 cs with
      | .error e => .error e
      | .ok (bs, ops) => .ok (.noise (requestBudget rs p.kind.mechanism 1).1 sens :: bs, noiseOps p ++ ops)

/-- `create_mechanism().add_noise(float(value))` for all elements of the collection (`dp_engine.py:596-605`). -/
noncomputable def noiseColumn (sigma : ℝ → ℝ → ℝ → ℝ) (s : Specs) (i : ℕ) (sens : Sens) (col : List (K × ℚ)) :
    Except Err (List (Candidate K)) :=
  col.mapM fun x =>
    match createAdditive sigma (s i) sens with
    | .ok m => .ok ⟨x.1, .always, [⟨x.1, i, 0, x.2, m⟩]⟩
    | .error e => .error (.mechanism e)

/-- The partitions that all steps may release, per step. -/
noncomputable def evalSteps (sigma : ℝ → ℝ → ℝ → ℝ) (s : Specs) (env : ℕ → Env K) (pid : R → P) (data : List R) :
    ℕ → List (Step R K) → List BuiltStep → Except Err (List (List (Candidate K)))
  | j, .call c :: cs, .call b :: bs =>
    match evalCall sigma s (env j) pid b data c with
    | .error e => .error e
    | .ok x =>
      match evalSteps sigma s env pid data (j + 1) cs bs with
      | .error e => .error e
      | .ok y => .ok (x :: y)
  | j, .noise _ column :: cs, .noise i sens :: bs =>
    match noiseColumn sigma s i sens (column data) with
    | .error e => .error e
    | .ok x =>
      match evalSteps sigma s env pid data (j + 1) cs bs with
      | .error e => .error e
      | .ok y => .ok (x :: y)
  | _, _, _ => .ok []

/-! ### Specification -/

/-- Steps for which the pipeline is shown to be private; `add_dp_noise` with positive sensitivities and weight. -/
def Step.Supported : Step R K → Prop
  | .call c => c.Supported
  | .noise p _ => (∃ a, p.l0 = some a ∧ 0 < a) ∧ (∃ b, p.linf = some b ∧ 0 < b) ∧ 0 < p.weight

/-- A supported step, also with percentiles. -/
def Step.SupportedAny : Step R K → Prop
  | .call c => c.SupportedAny
  | .noise p _ => (∃ a, p.l0 = some a ∧ 0 < a) ∧ (∃ b, p.linf = some b ∧ 0 < b) ∧ 0 < p.weight

theorem Step.Supported.any {c : Step R K} (h : c.Supported) : c.SupportedAny := by
  cases c with
  | call c => exact Call.Supported.any h
  | noise p f => exact h

/-- The step needs a positive delta. -/
def Step.NeedsDelta : Step R K → Prop
  | .call c => c.NeedsDelta
  | .noise p _ => p.kind = .gaussian

/-- What the user of `add_dp_noise` promises on two collections: the keys are distinct and the same; at most `l0_sensitivity`
values are different, each by at most `linf_sensitivity`. -/
structure Sensitive (p : AddNoise.Params) (col col' : List (K × ℚ)) : Prop where
  nodup : (col.map Prod.fst).Nodup
  nodup' : (col'.map Prod.fst).Nodup
  keys : ∀ k, k ∈ col.map Prod.fst ↔ k ∈ col'.map Prod.fst
  l0 : ∀ a, p.l0 = some a → ((col.filter fun x => x ∉ col').length : ℚ) ≤ a
  linf : ∀ b, p.linf = some b → ∀ k v v', (k, v) ∈ col → (k, v') ∈ col' → |v - v'| ≤ b

/-- What the user promises on the data with and without the privacy id `u`. -/
def Step.Promised (pid : R → P) (data : List R) (u : P) : Step R K → Prop
  | .call c => c.Promised pid data u
  | .noise p column => Sensitive p (column data) (column (data.filter fun r => pid r ≠ u))

/-! ### Lemmas: one `add_dp_noise` -/

/-- The value of a key. -/
def valueAt (col : List (K × ℚ)) (k : K) : ℚ :=
  match col.find? fun x => x.1 = k with
  | some x => x.2
  | none => 0

theorem valueAt_mem {col : List (K × ℚ)} (hn : (col.map Prod.fst).Nodup) {k : K} {v : ℚ} (h : (k, v) ∈ col) : valueAt col k = v := by
  unfold valueAt
  induction col with
  | nil => simp at h
  | cons x col ih =>
    rw [List.map_cons, List.nodup_cons] at hn
    rw [List.find?_cons]
    by_cases hx : x.1 = k
    · simp only [hx, decide_true]
      rcases List.mem_cons.mp h with rfl | h
      · rfl
      · exact absurd (List.mem_map.mpr ⟨(k, v), h, hx.symm⟩) hn.1
    · simp only [hx, decide_false]
      rcases List.mem_cons.mp h with rfl | h
      · exact absurd rfl hx
      · exact ih hn.2 h

theorem valueAt_absent {col : List (K × ℚ)} {k : K} (h : k ∉ col.map Prod.fst) : valueAt col k = 0 := by
  unfold valueAt
  rw [List.find?_eq_none.mpr]
  intro x hx
  simp only [decide_eq_true_eq]
  intro hk
  exact h (List.mem_map.mpr ⟨x, hx, hk⟩)

namespace Sensitive

variable {p : AddNoise.Params} {col col' : List (K × ℚ)}

theorem symm (h : Sensitive p col col') : Sensitive p col' col := by
  refine ⟨h.nodup', h.nodup, fun k => (h.keys k).symm, fun a ha => ?_, fun b hb k v v' hv hv' => ?_⟩
  · refine le_trans ?_ (h.l0 a ha)
    have key : (col'.filter fun x => x ∉ col).map Prod.fst ⊆ (col.filter fun x => x ∉ col').map Prod.fst := by
      intro k hk
      obtain ⟨⟨k', v'⟩, hx, rfl⟩ := List.mem_map.mp hk
      obtain ⟨h1, h2⟩ := List.mem_filter.mp hx
      simp only [decide_eq_true_eq] at h2
      obtain ⟨⟨k, v⟩, hy, hyk⟩ := List.mem_map.mp ((h.keys k').mpr (List.mem_map.mpr ⟨_, h1, rfl⟩))
      simp only at hyk
      subst hyk
      refine List.mem_map.mpr ⟨(k, v), List.mem_filter.mpr ⟨hy, ?_⟩, rfl⟩
      simp only [decide_eq_true_eq]
      intro hc
      have e1 := valueAt_mem h.nodup' hc
      rw [valueAt_mem h.nodup' h1] at e1
      subst e1
      exact h2 hy
    have hnd : ((col'.filter fun x => x ∉ col).map Prod.fst).Nodup := (List.filter_sublist.map _).nodup h.nodup'
    have := (hnd.subperm key).length_le
    rw [List.length_map, List.length_map] at this
    exact_mod_cast this
  · rw [abs_sub_comm]
    exact h.linf b hb k v' v hv' hv

/-- Keys whose value is different are few, and the difference is small. -/
theorem facts (h : Sensitive p col col') {a b : ℚ} (ha : p.l0 = some a) (hb : p.linf = some b) (hb0 : 0 < b) :
    ∃ D : List K, (D.length : ℚ) ≤ a ∧ (∀ k, valueAt col k ≠ valueAt col' k → k ∈ D) ∧
      ∀ k, |valueAt col k - valueAt col' k| ≤ b := by
  have pick : ∀ k, k ∈ col.map Prod.fst → ∃ v v', (k, v) ∈ col ∧ (k, v') ∈ col' := by
    intro k hk
    obtain ⟨⟨k1, v⟩, h1, rfl⟩ := List.mem_map.mp hk
    obtain ⟨⟨k2, v'⟩, h2, h3⟩ := List.mem_map.mp ((h.keys _).mp hk)
    simp only at h3
    subst h3
    exact ⟨v, v', h1, h2⟩
  refine ⟨(col.filter fun x => x ∉ col').map Prod.fst, by rw [List.length_map]; exact h.l0 a ha, fun k hne => ?_, fun k => ?_⟩
  · by_cases hk : k ∈ col.map Prod.fst
    · obtain ⟨v, v', h1, h2⟩ := pick k hk
      rw [valueAt_mem h.nodup h1, valueAt_mem h.nodup' h2] at hne
      refine List.mem_map.mpr ⟨(k, v), List.mem_filter.mpr ⟨h1, ?_⟩, rfl⟩
      simp only [decide_eq_true_eq]
      intro hc
      have := valueAt_mem h.nodup' hc
      rw [valueAt_mem h.nodup' h2] at this
      exact hne this.symm
    · rw [valueAt_absent hk, valueAt_absent fun hc => hk ((h.keys k).mpr hc)] at hne
      exact absurd rfl hne
  · by_cases hk : k ∈ col.map Prod.fst
    · obtain ⟨v, v', h1, h2⟩ := pick k hk
      rw [valueAt_mem h.nodup h1, valueAt_mem h.nodup' h2]
      exact h.linf b hb k v v' h1 h2
    · rw [valueAt_absent hk, valueAt_absent fun hc => hk ((h.keys k).mpr hc)]
      simpa using hb0.le

end Sensitive

/-- Few and small differences give small norms. -/
theorem norms_le {A B : K → ℚ} {D : List K} {a b : ℚ} (hD : (D.length : ℚ) ≤ a) (hne : ∀ k, A k ≠ B k → k ∈ D)
    (hle : ∀ k, |A k - B k| ≤ b) (hb : 0 < b) {ι : Type} [Fintype ι] (f : ι → K) (hf : Function.Injective f) :
    ∑ i, |((A (f i) : ℚ) : ℝ) - (B (f i) : ℚ)| ≤ (a : ℝ) * b ∧
      Real.sqrt (∑ i, (((A (f i) : ℚ) : ℝ) - (B (f i) : ℚ)) ^ 2) ≤ Real.sqrt a * b := by
  classical
  have hb' : (0 : ℝ) < b := by exact_mod_cast hb
  set T := Finset.univ.filter fun i => A (f i) ≠ B (f i) with hT
  have hcard : (T.card : ℝ) ≤ a := by
    have h1 : T.card ≤ D.toFinset.card := by
      refine Finset.card_le_card_of_injOn f ?_ fun x _ y _ hxy => hf hxy
      intro i hi
      simp only [hT, Finset.coe_filter, Finset.mem_univ, true_and, Set.mem_ofPred_eq] at hi
      simp only [Finset.mem_coe, List.mem_toFinset]
      exact hne _ hi
    have h2 : (T.card : ℚ) ≤ a := le_trans (by exact_mod_cast h1.trans D.toFinset_card_le) hD
    exact_mod_cast h2
  have hone : ∀ i, |((A (f i) : ℚ) : ℝ) - (B (f i) : ℚ)| ≤ b := fun i => by exact_mod_cast hle (f i)
  have hsupp : ∀ g : ℝ → ℝ, g 0 = 0 → ∑ i, g (((A (f i) : ℚ) : ℝ) - (B (f i) : ℚ))
      = ∑ i ∈ T, g (((A (f i) : ℚ) : ℝ) - (B (f i) : ℚ)) := by
    intro g hg
    symm
    refine Finset.sum_subset (Finset.subset_univ _) fun i _ hi => ?_
    have : A (f i) = B (f i) := by
      by_contra hc
      exact hi (Finset.mem_filter.mpr ⟨Finset.mem_univ _, hc⟩)
    rw [this, sub_self, hg]
  constructor
  · rw [hsupp (fun x => |x|) abs_zero]
    refine (Finset.sum_le_card_nsmul _ _ (b : ℝ) fun i _ => hone i).trans ?_
    rw [nsmul_eq_mul]
    exact mul_le_mul_of_nonneg_right hcard hb'.le
  · rw [hsupp (fun x => x ^ 2) (by norm_num)]
    have h1 : ∑ i ∈ T, (((A (f i) : ℚ) : ℝ) - (B (f i) : ℚ)) ^ 2 ≤ (a : ℝ) * (b : ℝ) ^ 2 := by
      refine (Finset.sum_le_card_nsmul _ _ ((b : ℝ) ^ 2) fun i _ => ?_).trans ?_
      · exact sq_le_sq' (by linarith [(abs_le.mp (hone i)).1]) (abs_le.mp (hone i)).2
      · rw [nsmul_eq_mul]
        exact mul_le_mul_of_nonneg_right hcard (by positivity)
    calc Real.sqrt _ ≤ Real.sqrt ((a : ℝ) * (b : ℝ) ^ 2) := Real.sqrt_le_sqrt h1
      _ = Real.sqrt a * b := by rw [Real.sqrt_mul' _ (by positivity), Real.sqrt_sq hb'.le]

/-- The mechanism of `add_dp_noise` makes the values indistinguishable. -/
theorem noise_close {lib : Library} (hlib : lib.Contract) {kind : NoiseKind} {a b : ℚ} (ha : 0 < a) (hb : 0 < b) {e d : ℝ} (he : 0 < e)
    (hd : kind = .gaussian → 0 < d) :
    ∃ m, createAdditive lib.sigma ⟨toMechType kind.mechanism, none, some e, some d⟩
        ⟨some (a : ℝ), some (b : ℝ), some ((a : ℝ) * b), some (Real.sqrt a * b)⟩ = .ok m ∧
      (∀ x, IsProbabilityMeasure (noisy m x)) ∧
      ∀ (A B : K → ℚ) (D : List K), (D.length : ℚ) ≤ a → (∀ k, A k ≠ B k → k ∈ D) → (∀ k, |A k - B k| ≤ b) →
        Close e (deltaShare kind d) (fun k => noisy m (A k)) (fun k => noisy m (B k)) := by
  have ha' : (0 : ℝ) < a := by exact_mod_cast ha
  have hb' : (0 : ℝ) < b := by exact_mod_cast hb
  cases kind with
  | laplace =>
    refine ⟨.laplace ((a : ℝ) * b / e) ((a : ℝ) * b), rfl, fun x => noisy_laplace_prob (by positivity) _ _, ?_⟩
    intro A B D h1 h2 h3 ι _ f hf
    exact laplace_group he (by positivity) _ _ (norms_le h1 h2 h3 hb f hf).1 _
  | gaussian =>
    have hd := hd rfl
    have h2 : 0 < Real.sqrt a * b := mul_pos (Real.sqrt_pos.mpr ha') hb'
    refine ⟨.gaussian (lib.sigma e d (Real.sqrt a * b)) (Real.sqrt a * b), rfl,
      fun x => noisy_gaussian_prob (hlib.gaussian.pos _ _ _ he hd h2) _ _, ?_⟩
    intro A B D h1 h3 h4 ι _ f hf
    exact hlib.gaussian.dp _ _ _ he hd h2 _ _ (norms_le h1 h3 h4 hb f hf).2

theorem noiseColumn_ok {sigma : ℝ → ℝ → ℝ → ℝ} {s : Specs} {i : ℕ} {sens : Sens} {m : Additive}
    (hm : createAdditive sigma (s i) sens = .ok m) (col : List (K × ℚ)) :
    noiseColumn sigma s i sens col = .ok (col.map fun x => ⟨x.1, .always, [⟨x.1, i, 0, x.2, m⟩]⟩) := by
  unfold noiseColumn
  simp only [hm]
  induction col with
  | nil => rfl
  | cons x col ih =>
    rw [List.mapM_cons, ih]; rfl

/-- **One `add_dp_noise`.** -/
theorem noise_call {lib : Library} (hlib : lib.Contract) {s : Specs} {ε δ : ℕ → ℝ} {p : AddNoise.Params} {i : ℕ} {a b : ℚ}
    (h0 : p.l0 = some a) (hi : p.linf = some b) (ha : 0 < a) (hb : 0 < b) (hs : SpecOk s ε δ i p.kind.mechanism)
    {col col' : List (K × ℚ)} (h : Sensitive p col col') :
    ∃ c c', noiseColumn lib.sigma s i ⟨some (a : ℝ), some (b : ℝ), some ((a : ℝ) * b), some (Real.sqrt a * b)⟩ col = .ok c ∧
      noiseColumn lib.sigma s i ⟨some (a : ℝ), some (b : ℝ), some ((a : ℝ) * b), some (Real.sqrt a * b)⟩ col' = .ok c' ∧
      ∃ q : Pair lib c c', q.e ≤ ε i ∧ q.d ≤ δ i := by
  obtain ⟨m, hm, hprob, hclose⟩ := noise_close (K := K) hlib (kind := p.kind) ha hb hs.eps
    (fun hk => hs.pos (by rw [hk]; simp [NoiseKind.mechanism]))
  rw [← hs.eq] at hm
  refine ⟨_, _, noiseColumn_ok hm col, noiseColumn_ok hm col', ?_⟩
  have hg : GateClose lib (col.map fun x => (⟨x.1, .always, [⟨x.1, i, 0, x.2, m⟩]⟩ : Candidate K))
      (col'.map fun x => (⟨x.1, .always, [⟨x.1, i, 0, x.2, m⟩]⟩ : Candidate K)) 0 0 :=
    gate_public h.nodup h.nodup' h.keys (fun _ => .always) (fun x => [⟨x.1, i, 0, x.2, m⟩]) fun _ => rfl
  have hnum : ∀ c : List (K × ℚ), (c.map Prod.fst).Nodup → ∀ k l,
      ((c.map fun x => (⟨x.1, .always, [⟨x.1, i, 0, x.2, m⟩]⟩ : Candidate K)).find? fun x => x.key = k).isSome →
      numberLaw (c.map fun x => (⟨x.1, .always, [⟨x.1, i, 0, x.2, m⟩]⟩ : Candidate K)) k l
        = if l ∈ [(i, 0)] then noisy m (valueAt c k : ℚ) else Measure.dirac 0 := by
    intro c hc k l hsome
    obtain ⟨y, hy⟩ := Option.isSome_iff_exists.mp hsome
    have hmem := List.mem_of_find?_eq_some hy
    have hkey : y.key = k := by simpa using List.find?_some hy
    obtain ⟨x, hx, rfl⟩ := List.mem_map.mp hmem
    simp only at hkey
    subst hkey
    unfold numberLaw
    rw [hy]
    simp only [List.find?_cons, List.find?_nil]
    by_cases hl : (i, 0) = l
    · subst hl
      simp only [decide_true, List.mem_singleton, if_true]
      rw [valueAt_mem hc (k := x.1) (v := x.2) hx]
      rfl
    · simp only [hl, decide_false]
      rw [if_neg (by simpa [eq_comm] using hl)]
  obtain ⟨D, d1, d2, d3⟩ := h.facts h0 hi hb
  obtain ⟨D', d1', d2', d3'⟩ := h.symm.facts h0 hi hb
  have hdn : 0 ≤ deltaShare p.kind (δ i) ∧ deltaShare p.kind (δ i) ≤ δ i := by
    have := hs.delta
    unfold deltaShare
    cases p.kind <;> simp [this]
  refine ⟨{ gate := _, gate' := _, ge := 0, gd := 0, labels := [(i, 0)],
            val := fun _ k => noisy m (valueAt col k : ℚ), val' := fun _ k => noisy m (valueAt col' k : ℚ),
            ve := fun _ => ε i, vd := fun _ => deltaShare p.kind (δ i),
            gate_eq := fun k => rfl, gate_eq' := fun k => rfl, prob := hg.prob, prob' := hg.prob', nodup := by simp,
            val_eq := hnum col h.nodup, val_eq' := hnum col' h.nodup',
            val_prob := fun _ _ => hprob _, val_prob' := fun _ _ => hprob _, gd_nonneg := le_rfl, vd_nonneg := fun _ => hdn.1,
            close := hg.close, close' := hg.close', val_close := fun _ _ => hclose _ _ D d1 d2 d3,
            val_close' := fun _ _ => hclose _ _ D' d1' d2' d3' }, ?_, ?_⟩
  · simp [Pair.e]
  · simpa [Pair.d] using hdn.2

end PDP.EndToEnd
