import Verif.EndToEnd.CallsExample
import Mathlib.Algebra.Order.BigOperators.Ring.Finset

/-!
# Groups of users, changed data, and several accountants (C71)

Consequences of C62 for other notions of neighbouring datasets, and for pipelines with different accountants.
-/

set_option linter.unusedSectionVars false

namespace PDP.Approx

open MeasureTheory

variable {X : Type} [MeasurableSpace X]

theorem Indist.trans {e₁ d₁ e₂ d₂ : ℝ} {μ ν ρ : Measure X} (h₁ : Indist e₁ d₁ μ ν) (h₂ : Indist e₂ d₂ ν ρ) (hd₁ : 0 ≤ d₁)
    (hd₂ : 0 ≤ d₂) : Indist (e₁ + e₂) (d₁ + Real.exp e₁ * d₂) μ ρ := by
  intro A hA
  calc μ A ≤ ENNReal.ofReal (Real.exp e₁) * ν A + ENNReal.ofReal d₁ := h₁ A hA
    _ ≤ ENNReal.ofReal (Real.exp e₁) * (ENNReal.ofReal (Real.exp e₂) * ρ A + ENNReal.ofReal d₂) + ENNReal.ofReal d₁ := by
        gcongr
        exact h₂ A hA
    _ = _ := by
        rw [mul_add, ← mul_assoc, ← ENNReal.ofReal_mul (Real.exp_nonneg _), ← ENNReal.ofReal_mul (Real.exp_nonneg _),
          ← Real.exp_add, ENNReal.ofReal_add hd₁ (mul_nonneg (Real.exp_nonneg _) hd₂)]
        ring

/-- Composition of finitely many independent releases. -/
theorem Indist.pi : ∀ {n : ℕ} {Y : Fin n → Type} [∀ i, MeasurableSpace (Y i)] (e d : Fin n → ℝ) (μ ν : ∀ i, Measure (Y i))
    [∀ i, IsProbabilityMeasure (μ i)] [∀ i, IsProbabilityMeasure (ν i)], (∀ i, 0 ≤ d i) → (∀ i, Indist (e i) (d i) (μ i) (ν i)) →
    Indist (∑ i, e i) (∑ i, d i) (Measure.pi μ) (Measure.pi ν)
  | 0, Y, _, e, d, μ, ν, _, _, _, _ => by
    have : μ = ν := funext fun i => i.elim0
    subst this
    rw [Finset.univ_eq_empty, Finset.sum_empty, Finset.sum_empty]
    exact Indist.refl _
  | n + 1, Y, _, e, d, μ, ν, _, _, hd, h => by
    have ih := Indist.pi (fun i => e (Fin.succAbove 0 i)) (fun i => d (Fin.succAbove 0 i)) (fun i => μ (Fin.succAbove 0 i))
      (fun i => ν (Fin.succAbove 0 i)) (fun i => hd _) (fun i => h _)
    have hp := ((h 0).prod ih (hd 0) (Finset.sum_nonneg fun i _ => hd _)).map
      (MeasurableEquiv.piFinSuccAbove Y 0).symm.measurable
    rw [((measurePreserving_piFinSuccAbove μ 0).symm _).map_eq, ((measurePreserving_piFinSuccAbove ν 0).symm _).map_eq] at hp
    rw [Fin.sum_univ_succAbove e 0, Fin.sum_univ_succAbove d 0]
    exact hp

end PDP.Approx

namespace PDP.EndToEnd

open PDP PDP.Engine MeasureTheory
open PDP.Engine.AddNoise (specOf)
open PDP.Budget (State Op MechType)
open PDP.Approx (Indist)

variable {R P K : Type} [DecidableEq P] [DecidableEq K]

/-! ### Specification -/

/-- The dataset without the rows of the privacy ids `us`. -/
def removeIds (pid : R → P) (us : List P) (data : List R) : List R := data.filter fun r => pid r ∉ us

/-- The delta for a group of `k` privacy ids. -/
noncomputable def groupDelta (e d : ℝ) (k : ℕ) : ℝ := d * ∑ i ∈ Finset.range k, Real.exp (i * e)

/-! ### Lemmas -/

theorem groupDelta_nonneg {e d : ℝ} (hd : 0 ≤ d) (k : ℕ) : 0 ≤ groupDelta e d k :=
  mul_nonneg hd (Finset.sum_nonneg fun _ _ => Real.exp_nonneg _)

theorem groupDelta_add (e d : ℝ) (k l : ℕ) : groupDelta e d (k + l) = groupDelta e d k + Real.exp (k * e) * groupDelta e d l := by
  unfold groupDelta
  have : ∑ i ∈ Finset.range l, Real.exp (((k + i : ℕ) : ℝ) * e)
      = Real.exp (k * e) * ∑ i ∈ Finset.range l, Real.exp (i * e) := by
    rw [Finset.mul_sum]
    refine Finset.sum_congr rfl fun i _ => ?_
    rw [← Real.exp_add]
    congr 1
    push_cast
    ring
  rw [Finset.sum_range_add, this]
  ring

theorem Promised.mono {pid : R → P} {data data' : List R} (h : data'.Sublist data) {u : P} {c : Call R K}
    (hc : c.Promised pid data u) : c.Promised pid data' u := by
  cases c with
  | select p key => trivial
  | aggregate p pub key value =>
    obtain ⟨⟨h1, h2⟩, h3⟩ := hc
    have hx : (extract pid key value data').Sublist (extract pid key value data) := h.map _
    have hpart : (partitionsOf u (extract pid key value data')).length ≤ (partitionsOf u (extract pid key value data)).length := by
      have hsub : ((extract pid key value data').filter fun r => r.1 = u).map (fun r => r.2.1) ⊆
          ((extract pid key value data).filter fun r => r.1 = u).map (fun r => r.2.1) := ((hx.filter _).map _).subset
      unfold partitionsOf
      exact (List.Nodup.subperm (List.nodup_dedup _) fun x hx => List.mem_dedup.mpr (hsub (List.mem_dedup.mp hx))).length_le
    refine ⟨⟨fun he => ?_, fun hp l0 hl => hpart.trans (h2 hp l0 hl)⟩, fun hf ps hps r hr => h3 hf ps hps r (h.subset hr)⟩
    obtain ⟨g1, g2, g3⟩ := h1 he
    refine ⟨fun m hm => ((hx.filter _).length_le).trans (g1 m hm), fun l0 hl => hpart.trans (g2 l0 hl), fun linf hl k => ?_⟩
    refine le_trans ?_ (g3 linf hl k)
    unfold cell
    exact ((hx.filter _).map _).length_le

/-- C62 for fixed random choices. -/
theorem pipeline_indist (fmt : ℚ → String) (lib : Library) (hlib : lib.Contract) {e d : ℚ} {num ws s0}
    (h0 : Budget.init e d num ws = .ok s0) (cs : List (Call R K)) (hs : ∀ c ∈ cs, c.Supported)
    (hd : (∃ c ∈ cs, c.NeedsDelta) → 0 < d) {bs ops} (hp : planCalls fmt [] cs = .ok (bs, ops))
    (hc : (Budget.step (Budget.run s0 ops).1 .compute).2 = .unit) (env : ℕ → Env K)
    (henv : ∀ j, (env j).Lawful) (pid : R → P) (data : List R) (u : P) (hu : ∀ c ∈ cs, c.Promised pid data u) :
    let s := specOf (Budget.step (Budget.run s0 ops).1 .compute).1
    ∃ L L', evalCalls lib.sigma s env pid data 0 cs bs = .ok L ∧
      evalCalls lib.sigma s env pid (removeId pid u data) 0 cs bs = .ok L' ∧
      ∀ (U : Finset (ℕ × K)) (S : Finset (ℕ × ℕ)),
        IsProbabilityMeasure (observedLaw lib U S L) ∧ IsProbabilityMeasure (observedLaw lib U S L') ∧
        Indist e d (observedLaw lib U S L) (observedLaw lib U S L') ∧
        Indist e d (observedLaw lib U S L') (observedLaw lib U S L) := by
  intro s
  obtain ⟨L, L', h1, h2⟩ := C62_pipeline_is_differentially_private fmt lib hlib h0 cs hs hd hp hc (Measure.dirac ())
    (fun _ => env) (fun _ => henv) pid data u hu
  refine ⟨L (), L' (), (h1 ()).1, (h1 ()).2, fun U S => ?_⟩
  obtain ⟨g1, g2⟩ := h2 U S
  refine ⟨(g1 ()).1, (g1 ()).2, fun A hA => ?_, fun A hA => ?_⟩
  · simpa using (g2 A hA).1
  · simpa using (g2 A hA).2

theorem lintegral_indist {Ω : Type} [MeasurableSpace Ω] (μ : Measure Ω) [IsProbabilityMeasure μ] {x y : ℝ} {f g : Ω → ENNReal}
    (h : ∀ ω, f ω ≤ ENNReal.ofReal x * g ω + ENNReal.ofReal y) :
    ∫⁻ ω, f ω ∂μ ≤ ENNReal.ofReal x * ∫⁻ ω, g ω ∂μ + ENNReal.ofReal y := by
  refine (lintegral_mono h).trans ?_
  rw [lintegral_add_right _ measurable_const, lintegral_const_mul' _ _ ENNReal.ofReal_ne_top]
  simp

theorem removeIds_cons (pid : R → P) (u : P) (us : List P) (data : List R) :
    removeIds pid (u :: us) data = removeIds pid us (removeId pid u data) := by
  unfold removeIds removeId
  rw [List.filter_filter]
  refine List.filter_congr fun r _ => ?_
  simp [Bool.and_comm]

theorem init_delta_nonneg {e d : ℚ} {num ws s0} (h0 : Budget.init e d num ws = .ok s0) : 0 ≤ d := by
  unfold Budget.init at h0
  split at h0
  · cases h0
  · split at h0
    · cases h0
    · rename_i h
      exact not_lt.mp fun hn => h (.inl hn)

theorem group_removed (fmt : ℚ → String) (lib : Library) (hlib : lib.Contract) {e d : ℚ} {num ws s0}
    (h0 : Budget.init e d num ws = .ok s0) (cs : List (Call R K)) (hs : ∀ c ∈ cs, c.Supported)
    (hd : (∃ c ∈ cs, c.NeedsDelta) → 0 < d) {bs ops} (hp : planCalls fmt [] cs = .ok (bs, ops))
    (hc : (Budget.step (Budget.run s0 ops).1 .compute).2 = .unit) (env : ℕ → Env K)
    (henv : ∀ j, (env j).Lawful) (pid : R → P) (us : List P) (u0 : P) :
    let s := specOf (Budget.step (Budget.run s0 ops).1 .compute).1
    ∀ (data : List R), (∀ u ∈ u0 :: us, ∀ c ∈ cs, c.Promised pid data u) →
    ∃ L L', evalCalls lib.sigma s env pid data 0 cs bs = .ok L ∧
      evalCalls lib.sigma s env pid (removeIds pid (u0 :: us) data) 0 cs bs = .ok L' ∧
      ∀ (U : Finset (ℕ × K)) (S : Finset (ℕ × ℕ)),
        IsProbabilityMeasure (observedLaw lib U S L) ∧ IsProbabilityMeasure (observedLaw lib U S L') ∧
        Indist ((u0 :: us).length * e) (groupDelta e d (u0 :: us).length) (observedLaw lib U S L) (observedLaw lib U S L') ∧
        Indist ((u0 :: us).length * e) (groupDelta e d (u0 :: us).length) (observedLaw lib U S L') (observedLaw lib U S L) := by
  intro s
  have hd0 : (0 : ℝ) ≤ d := by exact_mod_cast init_delta_nonneg h0
  induction us generalizing u0 with
  | nil =>
    intro data hu
    obtain ⟨L, L', h1, h2, h3⟩ := pipeline_indist fmt lib hlib h0 cs hs hd hp hc env henv pid data u0 (hu u0 (by simp))
    have hr : removeIds pid [u0] data = removeId pid u0 data := by
      unfold removeIds removeId
      refine List.filter_congr fun r _ => ?_
      simp
    refine ⟨L, L', h1, by rw [hr]; exact h2, fun U S => ?_⟩
    obtain ⟨g1, g2, g3, g4⟩ := h3 U S
    have hg : groupDelta e d ([u0] : List P).length = d := by simp [groupDelta]
    rw [hg]
    simp only [List.length_cons, List.length_nil, Nat.zero_add, Nat.cast_one, one_mul]
    exact ⟨g1, g2, g3, g4⟩
  | cons u us ih =>
    intro data hu
    obtain ⟨L, L', h1, h2, h3⟩ := pipeline_indist fmt lib hlib h0 cs hs hd hp hc env henv pid data u0 (hu u0 (by simp))
    obtain ⟨M, M', m1, m2, m3⟩ := ih u (removeId pid u0 data) (fun v hv c hcc =>
      Promised.mono (by unfold removeId; exact List.filter_sublist) (hu v (by simp [List.mem_cons.mp hv]) c hcc))
    have hML : M = L' := by
      have := m1.symm.trans h2
      cases this; rfl
    subst hML
    refine ⟨L, M', h1, by rw [removeIds_cons]; exact m2, fun U S => ?_⟩
    obtain ⟨g1, g2, g3, g4⟩ := h3 U S
    obtain ⟨k1, k2, k3, k4⟩ := m3 U S
    have hk := groupDelta_nonneg (e := e) hd0 (u :: us).length
    have he : ((u0 :: u :: us).length * e : ℝ) = e + (u :: us).length * e := by
      simp only [List.length_cons]; push_cast; ring
    have hg1 : groupDelta e d (u0 :: u :: us).length = d + Real.exp e * groupDelta e d (u :: us).length := by
      rw [show (u0 :: u :: us).length = 1 + (u :: us).length by simp [Nat.add_comm], groupDelta_add]
      simp [groupDelta]
    have hg2 : groupDelta e d (u0 :: u :: us).length
        = groupDelta e d (u :: us).length + Real.exp ((u :: us).length * e) * d := by
      rw [show (u0 :: u :: us).length = (u :: us).length + 1 by simp, groupDelta_add]
      simp [groupDelta]
    refine ⟨g1, k2, ?_, ?_⟩
    · rw [he, hg1]
      exact g3.trans k3 hd0 hk
    · rw [he, hg2, add_comm]
      exact k4.trans g4 hk hd0

/-! ### Properties -/

/-- **C71** (groups of users).  If a pipeline has the total budget `(e, d)`, then for a group of `k` privacy ids it is private with
epsilon `k e` and delta `d (1 + exp e + … + exp ((k - 1) e))`: the results with and without all rows of the group are
indistinguishable. -/
theorem C71_groups (fmt : ℚ → String) (lib : Library) (hlib : lib.Contract) {e d : ℚ} {num ws s0}
    (h0 : Budget.init e d num ws = .ok s0) (cs : List (Call R K)) (hs : ∀ c ∈ cs, c.Supported)
    (hd : (∃ c ∈ cs, c.NeedsDelta) → 0 < d) {bs ops} (hp : planCalls fmt [] cs = .ok (bs, ops))
    (hc : (Budget.step (Budget.run s0 ops).1 .compute).2 = .unit)
    {Ω : Type} [MeasurableSpace Ω] (μ : Measure Ω) [IsProbabilityMeasure μ] (env : Ω → ℕ → Env K)
    (henv : ∀ ω j, (env ω j).Lawful) (pid : R → P) (data : List R) (us : List P) (hus : us ≠ [])
    (hu : ∀ u ∈ us, ∀ c ∈ cs, c.Promised pid data u) :
    let s := specOf (Budget.step (Budget.run s0 ops).1 .compute).1
    ∃ L L' : Ω → List (List (Candidate K)),
      (∀ ω, evalCalls lib.sigma s (env ω) pid data 0 cs bs = .ok (L ω) ∧
        evalCalls lib.sigma s (env ω) pid (data.filter fun r => pid r ∉ us) 0 cs bs = .ok (L' ω)) ∧
      ∀ (U : Finset (ℕ × K)) (S : Finset (ℕ × ℕ)), ∀ A, MeasurableSet A →
          ∫⁻ ω, observedLaw lib U S (L ω) A ∂μ
            ≤ ENNReal.ofReal (Real.exp (us.length * e)) * ∫⁻ ω, observedLaw lib U S (L' ω) A ∂μ
              + ENNReal.ofReal (groupDelta e d us.length) ∧
          ∫⁻ ω, observedLaw lib U S (L' ω) A ∂μ
            ≤ ENNReal.ofReal (Real.exp (us.length * e)) * ∫⁻ ω, observedLaw lib U S (L ω) A ∂μ
              + ENNReal.ofReal (groupDelta e d us.length) := by
  intro s
  obtain ⟨u0, us, rfl⟩ := List.exists_cons_of_ne_nil hus
  have key := fun ω => group_removed fmt lib hlib h0 cs hs hd hp hc (env ω) (henv ω) pid us u0 data hu
  choose L L' a1 a2 a3 using key
  refine ⟨L, L', fun ω => ⟨a1 ω, a2 ω⟩, fun U S A hA => ⟨?_, ?_⟩⟩
  · exact lintegral_indist μ fun ω => (a3 ω U S).2.2.1 A hA
  · exact lintegral_indist μ fun ω => (a3 ω U S).2.2.2 A hA

/-- **C71** (changed data).  If the rows of `k` privacy ids are changed in any way (rows added, removed or replaced), the results are
indistinguishable with epsilon `2 k e` and delta `d (1 + exp e + … + exp ((2 k - 1) e))`. -/
theorem C71_changed_data (fmt : ℚ → String) (lib : Library) (hlib : lib.Contract) {e d : ℚ} {num ws s0}
    (h0 : Budget.init e d num ws = .ok s0) (cs : List (Call R K)) (hs : ∀ c ∈ cs, c.Supported)
    (hd : (∃ c ∈ cs, c.NeedsDelta) → 0 < d) {bs ops} (hp : planCalls fmt [] cs = .ok (bs, ops))
    (hc : (Budget.step (Budget.run s0 ops).1 .compute).2 = .unit)
    {Ω : Type} [MeasurableSpace Ω] (μ : Measure Ω) [IsProbabilityMeasure μ] (env : Ω → ℕ → Env K)
    (henv : ∀ ω j, (env ω j).Lawful) (pid : R → P) (data data' : List R) (us : List P) (hus : us ≠ [])
    (hdata : (data.filter fun r => pid r ∉ us) = data'.filter fun r => pid r ∉ us)
    (hu : ∀ u ∈ us, ∀ c ∈ cs, c.Promised pid data u ∧ c.Promised pid data' u) :
    let s := specOf (Budget.step (Budget.run s0 ops).1 .compute).1
    ∃ L L' : Ω → List (List (Candidate K)),
      (∀ ω, evalCalls lib.sigma s (env ω) pid data 0 cs bs = .ok (L ω) ∧
        evalCalls lib.sigma s (env ω) pid data' 0 cs bs = .ok (L' ω)) ∧
      ∀ (U : Finset (ℕ × K)) (S : Finset (ℕ × ℕ)), ∀ A, MeasurableSet A →
          ∫⁻ ω, observedLaw lib U S (L ω) A ∂μ
            ≤ ENNReal.ofReal (Real.exp (2 * us.length * e)) * ∫⁻ ω, observedLaw lib U S (L' ω) A ∂μ
              + ENNReal.ofReal (groupDelta e d (2 * us.length)) := by
  intro s
  obtain ⟨u0, us, rfl⟩ := List.exists_cons_of_ne_nil hus
  have hd0 : (0 : ℝ) ≤ d := by exact_mod_cast init_delta_nonneg h0
  have key := fun ω => group_removed fmt lib hlib h0 cs hs hd hp hc (env ω) (henv ω) pid us u0 data
    (fun u h c hcc => (hu u h c hcc).1)
  have key' := fun ω => group_removed fmt lib hlib h0 cs hs hd hp hc (env ω) (henv ω) pid us u0 data'
    (fun u h c hcc => (hu u h c hcc).2)
  choose L M a1 a2 a3 using key
  choose L' M' b1 b2 b3 using key'
  have hM : M = M' := by
    funext ω
    have h1 := a2 ω
    have h2 := b2 ω
    unfold removeIds at h1 h2
    rw [hdata, h2] at h1
    exact (Except.ok.inj h1).symm
  subst hM
  refine ⟨L, L', fun ω => ⟨a1 ω, b1 ω⟩, fun U S A hA => ?_⟩
  refine lintegral_indist μ fun ω => ?_
  have hk := groupDelta_nonneg (e := e) hd0 (u0 :: us).length
  have h := ((a3 ω U S).2.2.1.trans (b3 ω U S).2.2.2 hk hk) A hA
  rw [← groupDelta_add] at h
  rw [show (2 * ((u0 :: us).length : ℝ) * e) = (u0 :: us).length * e + (u0 :: us).length * e by ring,
    show 2 * (u0 :: us).length = (u0 :: us).length + (u0 :: us).length by ring]
  exact h

/-- One of several pipelines: its calls, the total budget of its accountant, and what the accountant was told. -/
structure Accounted (R K : Type) where
  calls : List (Call R K)
  e : ℚ
  d : ℚ
  num : Option ℤ
  ws : Option (List ℚ)
  start : State
  built : List Built
  ops : List Op

/-- The accountant is created, the calls are accepted, and `compute_budgets` succeeds. -/
structure Accounted.Runs (fmt : ℚ → String) (a : Accounted R K) : Prop where
  init : Budget.init a.e a.d a.num a.ws = .ok a.start
  plan : planCalls fmt [] a.calls = .ok (a.built, a.ops)
  compute : (Budget.step (Budget.run a.start a.ops).1 .compute).2 = .unit

/-- The budgets that the accountant has given to the mechanisms. -/
def Accounted.specs (a : Accounted R K) : Specs := specOf (Budget.step (Budget.run a.start a.ops).1 .compute).1

/-- **C71** (several accountants).  The results of pipelines with accountants of total budgets `(eᵢ, dᵢ)` on the same data, all
observed together, are private with the sums of the `eᵢ` and of the `dᵢ`. -/
theorem C71_several_accountants (fmt : ℚ → String) (lib : Library) (hlib : lib.Contract) {n : ℕ} (a : Fin n → Accounted R K)
    (hr : ∀ i, (a i).Runs fmt) (hs : ∀ i, ∀ c ∈ (a i).calls, c.Supported)
    (hd : ∀ i, (∃ c ∈ (a i).calls, c.NeedsDelta) → 0 < (a i).d)
    {Ω : Type} [MeasurableSpace Ω] (μ : Measure Ω) [IsProbabilityMeasure μ] (env : Ω → Fin n → ℕ → Env K)
    (henv : ∀ ω i j, (env ω i j).Lawful) (pid : R → P) (data : List R) (u : P)
    (hu : ∀ i, ∀ c ∈ (a i).calls, c.Promised pid data u) :
    ∃ L L' : Ω → Fin n → List (List (Candidate K)),
      (∀ ω i, evalCalls lib.sigma (a i).specs (env ω i) pid data 0 (a i).calls (a i).built = .ok (L ω i) ∧
        evalCalls lib.sigma (a i).specs (env ω i) pid (removeId pid u data) 0 (a i).calls (a i).built = .ok (L' ω i)) ∧
      ∀ (U : Fin n → Finset (ℕ × K)) (S : Fin n → Finset (ℕ × ℕ)), ∀ A, MeasurableSet A →
        ∫⁻ ω, Measure.pi (fun i => observedLaw lib (U i) (S i) (L ω i)) A ∂μ
          ≤ ENNReal.ofReal (Real.exp (∑ i, (a i).e : ℚ)) * ∫⁻ ω, Measure.pi (fun i => observedLaw lib (U i) (S i) (L' ω i)) A ∂μ
            + ENNReal.ofReal (∑ i, (a i).d : ℚ) ∧
        ∫⁻ ω, Measure.pi (fun i => observedLaw lib (U i) (S i) (L' ω i)) A ∂μ
          ≤ ENNReal.ofReal (Real.exp (∑ i, (a i).e : ℚ)) * ∫⁻ ω, Measure.pi (fun i => observedLaw lib (U i) (S i) (L ω i)) A ∂μ
            + ENNReal.ofReal (∑ i, (a i).d : ℚ) := by
  have key := fun ω i => pipeline_indist fmt lib hlib (hr i).init (a i).calls (hs i) (hd i) (hr i).plan (hr i).compute (env ω i)
    (henv ω i) pid data u (hu i)
  choose L L' a1 a2 a3 using key
  have hdn : ∀ i, (0 : ℝ) ≤ (a i).d := fun i => by exact_mod_cast init_delta_nonneg (hr i).init
  refine ⟨L, L', fun ω i => ⟨a1 ω i, a2 ω i⟩, fun U S A hA => ?_⟩
  push_cast
  constructor
  · refine lintegral_indist μ fun ω => ?_
    have (i : Fin n) : IsProbabilityMeasure (observedLaw lib (U i) (S i) (L ω i)) := (a3 ω i (U i) (S i)).1
    have (i : Fin n) : IsProbabilityMeasure (observedLaw lib (U i) (S i) (L' ω i)) := (a3 ω i (U i) (S i)).2.1
    exact Indist.pi (fun i => ((a i).e : ℝ)) (fun i => ((a i).d : ℝ)) _ _ hdn (fun i => (a3 ω i (U i) (S i)).2.2.1) A hA
  · refine lintegral_indist μ fun ω => ?_
    have (i : Fin n) : IsProbabilityMeasure (observedLaw lib (U i) (S i) (L ω i)) := (a3 ω i (U i) (S i)).1
    have (i : Fin n) : IsProbabilityMeasure (observedLaw lib (U i) (S i) (L' ω i)) := (a3 ω i (U i) (S i)).2.1
    exact Indist.pi (fun i => ((a i).e : ℝ)) (fun i => ((a i).d : ℝ)) _ _ hdn (fun i => (a3 ω i (U i) (S i)).2.2.2) A hA

/-! ### Example -/

theorem exampleCalls_promised (data : List (ℕ × ℕ × ℚ)) (u : ℕ) : ∀ c ∈ exampleCalls, c.Promised Prod.fst data u := by
  intro c hc
  simp only [exampleCalls, List.mem_cons, List.not_mem_nil, or_false] at hc
  rcases hc with rfl | rfl | rfl | rfl
  · exact ⟨⟨fun h => by simp [examplePrivate] at h, fun h => by simp [examplePrivate] at h⟩,
      fun h => by simp [examplePrivate] at h⟩
  · exact ⟨⟨fun h => by simp [exampleThresholded] at h, fun h => by simp [exampleThresholded] at h⟩,
      fun h => by simp [exampleThresholded] at h⟩
  · exact ⟨⟨fun h => by simp [exampleVariance] at h, fun h => by simp [exampleVariance] at h⟩,
      fun h => by simp [exampleVariance] at h⟩
  · trivial

theorem exampleCalls_run (fmt : ℚ → String) {e d : ℚ} (he : 0 < e) (hd0 : 0 < d) (hd1 : d < 1) :
    ∃ s0 bs ops, Accounted.Runs fmt ⟨exampleCalls, e, d, none, some [1, 2, 2, 1], s0, bs, ops⟩ := by
  obtain ⟨s0, h0⟩ : ∃ s0, Budget.init e d none (some [1, 2, 2, 1]) = .ok s0 := by
    simp [Budget.init, not_le.mpr he, not_lt.mpr hd0.le, not_le.mpr hd1]
  obtain ⟨bs, ops, hp, -, hc⟩ := C62_supported_pipeline_runs fmt exampleCalls exampleCalls_supported h0
    (fun _ => hd0) ⟨by simp, by intro l hl; cases hl; rfl⟩
  exact ⟨s0, bs, ops, h0, hp, hc⟩

theorem changed_rows (data : List (ℕ × ℕ × ℚ)) (u v : ℕ) : (data.filter fun r => r.1 ∉ [u, v])
    = (data.map fun r => if r.1 = u ∨ r.1 = v then (r.1, r.2.1 + 1, 7) else r).filter fun r => r.1 ∉ [u, v] := by
  induction data with
  | nil => rfl
  | cons r data ih =>
    by_cases h : r.1 = u ∨ r.1 = v
    · rw [List.map_cons, if_pos h, List.filter_cons_of_neg (by simpa using fun hu => h.resolve_left hu),
        List.filter_cons_of_neg (by simpa using fun hu => h.resolve_left hu), ih]
    · have hm : r.1 ∉ [u, v] := by simpa using h
      rw [List.map_cons, if_neg h, List.filter_cons_of_pos (by simpa using hm), List.filter_cons_of_pos (by simpa using hm), ih]

/-- The pipeline of C62 with total budget (1, 1/1000) and two users, removed or with other amounts on other days: epsilon is 2 or 4. -/
example (fmt : ℚ → String) (data : List (ℕ × ℕ × ℚ)) (u v : ℕ) :
    ∃ s0 bs ops, Accounted.Runs fmt ⟨exampleCalls, 1, 1 / 1000, none, some [1, 2, 2, 1], s0, bs, ops⟩ ∧
      let s := specOf (Budget.step (Budget.run s0 ops).1 .compute).1
      let env : ℕ → Env ℕ := fun _ => exampleEnv firstRng
      let changed := data.map fun r => if r.1 = u ∨ r.1 = v then (r.1, r.2.1 + 1, 7) else r
      ∃ L L' M, evalCalls exampleLibrary.sigma s env Prod.fst data 0 exampleCalls bs = .ok L ∧
          evalCalls exampleLibrary.sigma s env Prod.fst (data.filter fun r => r.1 ∉ [u, v]) 0 exampleCalls bs = .ok L' ∧
          evalCalls exampleLibrary.sigma s env Prod.fst changed 0 exampleCalls bs = .ok M ∧
        ∀ (U : Finset (ℕ × ℕ)) (S : Finset (ℕ × ℕ)), ∀ A, MeasurableSet A →
          observedLaw exampleLibrary U S L A ≤ ENNReal.ofReal (Real.exp 2) * observedLaw exampleLibrary U S L' A
            + ENNReal.ofReal (1 / 1000 * (1 + Real.exp 1)) ∧
          observedLaw exampleLibrary U S L A ≤ ENNReal.ofReal (Real.exp 4) * observedLaw exampleLibrary U S M A
            + ENNReal.ofReal (1 / 1000 * (1 + Real.exp 1 + Real.exp 2 + Real.exp 3)) := by
  obtain ⟨s0, bs, ops, hr⟩ := exampleCalls_run fmt (e := 1) (d := 1 / 1000) (by norm_num) (by norm_num) (by norm_num)
  refine ⟨s0, bs, ops, hr, ?_⟩
  intro s env changed
  obtain ⟨L, L', h1, h2⟩ := C71_groups fmt exampleLibrary exampleLibrary_contract hr.init exampleCalls exampleCalls_supported
    (fun _ => by norm_num) hr.plan hr.compute (Measure.dirac ()) (fun _ => env) (fun _ _ => exampleEnv_lawful _) Prod.fst data
    [u, v] (by simp) (fun u _ => exampleCalls_promised data u)
  obtain ⟨N, M, h3, h4⟩ := C71_changed_data fmt exampleLibrary exampleLibrary_contract hr.init exampleCalls exampleCalls_supported
    (fun _ => by norm_num) hr.plan hr.compute (Measure.dirac ()) (fun _ => env) (fun _ _ => exampleEnv_lawful _) Prod.fst data
    changed [u, v] (by simp) (changed_rows data u v)
    (fun u _ c hc => ⟨exampleCalls_promised data u c hc, exampleCalls_promised changed u c hc⟩)
  have hNL : N () = L () := Except.ok.inj ((h3 ()).1.symm.trans (h1 ()).1)
  refine ⟨L (), L' (), M (), (h1 ()).1, (h1 ()).2, (h3 ()).2, fun U S A hA => ⟨?_, ?_⟩⟩
  · have := (h2 U S A hA).1
    simpa [groupDelta, Finset.sum_range_succ] using this
  · have := h4 U S A hA
    rw [← hNL]
    norm_num [groupDelta, Finset.sum_range_succ] at this ⊢
    exact this

/-- Two accountants with budgets (1, 1/1000) and (1/2, 1/2000). -/
example (fmt : ℚ → String) (data : List (ℕ × ℕ × ℚ)) (u : ℕ) : ∃ a : Fin 2 → Accounted (ℕ × ℕ × ℚ) ℕ,
    (∀ i, (a i).Runs fmt) ∧ (∀ i, ∀ c ∈ (a i).calls, c.Supported ∧ c.Promised Prod.fst data u) ∧ (∀ i, 0 < (a i).d) ∧
      ∑ i, (a i).e = 3 / 2 ∧ ∑ i, (a i).d = 3 / 2000 := by
  obtain ⟨s0, bs, ops, h1⟩ := exampleCalls_run fmt (e := 1) (d := 1 / 1000) (by norm_num) (by norm_num) (by norm_num)
  obtain ⟨s0', bs', ops', h2⟩ := exampleCalls_run fmt (e := 1 / 2) (d := 1 / 2000) (by norm_num) (by norm_num) (by norm_num)
  refine ⟨![⟨exampleCalls, 1, 1 / 1000, none, some [1, 2, 2, 1], s0, bs, ops⟩,
    ⟨exampleCalls, 1 / 2, 1 / 2000, none, some [1, 2, 2, 1], s0', bs', ops'⟩], ?_, ?_, ?_, ?_, ?_⟩
  · intro i; fin_cases i
    · exact h1
    · exact h2
  · intro i c hc
    have : c ∈ exampleCalls := by fin_cases i <;> exact hc
    exact ⟨exampleCalls_supported c this, exampleCalls_promised data u c this⟩
  · intro i; fin_cases i <;> norm_num
  · rw [Fin.sum_univ_two]; norm_num
  · rw [Fin.sum_univ_two]; norm_num

end PDP.EndToEnd
