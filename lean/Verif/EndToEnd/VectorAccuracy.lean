import Verif.EndToEnd.Accuracy
import Verif.EndToEnd.VectorMore

/-!
# How far released vector sums are from the exact ones (C94)
-/

set_option linter.unusedSectionVars false

namespace PDP.EndToEnd

open PDP PDP.Engine MeasureTheory
open PDP.Engine.Mechanism (Additive computed)
open PDP.Engine.AddNoise (specOf)
open PDP.Budget (State Op MechType)

variable {R P K V A O : Type} [DecidableEq P] [DecidableEq K] [MeasurableSpace O]

/-! ### Specification -/

/-- Coordinate `j` of the sum of the arrays of all rows of the partition `k`. -/
def exactVector (vec : V → List ℚ) (c : CustomCall R K V) (data : List R) (k : K) (j : ℕ) : ℚ :=
  ((data.filter fun r => c.key r = k).map fun r => (vec (c.value r)).getD j 0).sum

/-- A coordinate with distribution `law` is around `v`, for arrays of `n` coordinates and the budget (`eps`, `delta`) of the sum: Laplace
noise of scale `n · l0 · linf / eps`, or the Gaussian noise for (`eps / n`, `delta / n`) and the sensitivity `√l0 · linf`. -/
def CoordinateAccurate (sigma : ℝ → ℝ → ℝ → ℝ) (kind : NoiseKind) (l0 linf n : ℕ) (eps delta v : ℝ) (law : Measure ℝ) : Prop :=
  match kind with
  | .laplace => LaplaceAround law v ((n : ℝ) * (l0 * linf) / eps)
  | .gaussian => GaussianAround law v (sigma (eps / n) (delta / n) (Real.sqrt l0 * linf))

/-- What the noise is added to, for the exact vector `a`: a vector of norm at most `M`; `a` itself if its norm is at most `M`; otherwise
the coordinates are clipped (Linf), or all are scaled down by the same factor (L1, L2). -/
structure ClippedTo (M : ℝ) (kind : NormKind) {n : ℕ} (a w : Fin n → ℝ) : Prop where
  ball : InBall M (List.ofFn w) kind
  same : InBall M (List.ofFn a) kind → w = a
  linf : kind = .linf → ∀ j, w j = min (max (a j) (-M)) M
  l1 : kind = .l1 → ∀ c : ℝ, c = ∑ j, |a j| → c ≠ 0 → M ≤ c → ∀ j, w j = a j * (M / c)
  l2 : kind = .l2 → ∀ c : ℝ, c = Real.sqrt (∑ j, a j ^ 2) → c ≠ 0 → M ≤ c → ∀ j, w j = a j * (M / c)

/-- No privacy id has rows in more than `max_partitions_contributed` partitions or more than `max_contributions_per_partition` rows in
one partition (or the caller says that the bounds are enforced). -/
def CustomCall.Within (pid : R → P) (c : CustomCall R K V) (data : List R) : Prop :=
  c.params.boundsEnforced = false →
    WithinPartitionBounds c.params (c.rows pid data) ∧ WithinRowBounds c.params (c.rows pid data)

/-- The vector of the partition `k` is released with the distribution `ρ`: independent coordinates, each around the clipped exact sum. -/
def VectorReleased (sigma : ℝ → ℝ → ℝ → ℝ) (noise : NoiseKind) (l0 linf n : ℕ) (M : ℚ) (kind : NormKind) (eps delta : ℝ)
    (a : Fin n → ℝ) (ρ : Measure (ℕ → ℝ)) : Prop :=
  ∃ (w : Fin n → ℝ) (laws : Fin n → Measure ℝ), ClippedTo M kind a w ∧
    ρ = (Measure.pi laws).map (padded n) ∧
    (∀ j, CoordinateAccurate sigma noise l0 linf n eps delta (w j) (laws j)) ∧
    ∀ j : Fin n, ρ.map (fun x => x j) = laws j

/-! ### Lemmas -/

theorem accumulators_all (B : Backend) (hB : B.Lawful) (p : Params) (hp : p.BoundsValid) (create : List V → A)
    (col : List (P × K × V)) (hw : p.boundsEnforced = false → WithinPartitionBounds p col ∧ WithinRowBounds p col) :
    ∃ en : List ((P × K) × List V), (rowsBehind en).Perm col ∧ (∀ e ∈ en, e.2 ≠ []) ∧
      accumulators B p true create none col = .ok ((lists none en).map fun e => (e.1, create e.2)) := by
  cases he : p.boundsEnforced with
  | true =>
    refine ⟨col.map fun r => ((r.1, r.2.1), [r.2.2]), ?_, ?_, ?_⟩
    · have : rowsBehind (col.map fun r : P × K × V => ((r.1, r.2.1), [r.2.2])) = col := by
        unfold rowsBehind
        rw [List.flatMap_map]
        simp
      rw [this]
    · intro e he
      obtain ⟨r, -, rfl⟩ := List.mem_map.mp he
      simp
    · rw [← addEmptyPublic_map]
      simp [accumulators, dataAccumulators, dropPartitions, he, bind, Except.bind, pure, Except.pure, Function.comp_def]
  | false =>
    obtain ⟨b, hb, kept, k1, k2, k3⟩ := run_lossless B hB p hp true create col (hw he).1 fun _ => (hw he).2
    refine ⟨kept, k3, k2.nonempty, ?_⟩
    rw [← addEmptyPublic_map]
    simp [accumulators, dataAccumulators, dropPartitions, he, hb, bind, Except.bind, pure, Except.pure, k1, Function.comp_def]

theorem vector_outputs {cls : ℕ → CustomClass V A O} {s : Specs} {st : Store} {env : Env K} (henv : env.Lawful) {pid : R → P}
    {sel : Option ℕ} {data : List R} {c : CustomCall R K V} (hb : c.params.BoundsValid) (hpub : c.partitions = none)
    (hsam : c.sampling cls = true) (hw : c.Within pid data) {o : ℕ} (ho : c.combiners = [o]) {p is}
    (hst : st o = some (p, is))
    (hm : (∀ a b, (cls o).merge p a b = (cls o).merge p b a) ∧
      ∀ a b d, (cls o).merge p ((cls o).merge p a b) d = (cls o).merge p a ((cls o).merge p b d)) {x}
    (hx : evalCustom cls s st env pid sel data c = .ok x) :
    ∃ (en : List ((P × K) × List V)) (bs : List (ℝ × ℝ)), (rowsBehind en).Perm (c.rows pid data) ∧ (∀ e ∈ en, e.2 ≠ []) ∧ BudgetsAre s is bs ∧
      (x.map CustomCandidate.key).Nodup ∧ (∀ k, k ∈ x.map CustomCandidate.key ↔ k ∈ en.map fun e => e.1.2) ∧
      ∀ y ∈ x, y.outputs = [(cls o).compute p bs ((cls o).total p (listsOf none en y.key))] := by
  unfold evalCustom at hx
  rcases hr : c.combiners.mapM (ready cls s st) with e | cs
  · rw [hr] at hx; cases hx
  · rw [hr] at hx
    dsimp only at hx
    obtain ⟨z, rfl, hz⟩ := readyAll_inv hr
    obtain ⟨en, hen, hne, ha⟩ := accumulators_all env.backend henv.backend c.params hb (customCreate (z.map readyGen))
      (c.rows pid data) hw
    rw [hsam, hpub, ha] at hx
    dsimp only at hx
    rw [ho] at hz
    obtain ⟨q, rfl, hq⟩ : ∃ q, z = [q] ∧ (q.1 = cls o ∧ ∃ is, st o = some (q.2.1, is) ∧ BudgetsAre s is q.2.2) := by
      cases hz with
      | cons h1 h2 => cases h2; exact ⟨_, rfl, h1⟩
    obtain ⟨hq1, is', hq2, hq3⟩ := hq
    rw [hst] at hq2
    cases hq2
    have hC : IsCombine (customMerge ([q].map readyGen)) ((lists none en).map fun e => (e.1, customCreate ([q].map readyGen) e.2))
      (env.combine (customMerge ([q].map readyGen)) _) := henv.combine _ _
    have hf := mapM_inv hx
    generalize hout : env.combine (customMerge ([q].map readyGen))
      ((lists none en).map fun e => (e.1, customCreate ([q].map readyGen) e.2)) = out at hC hf
    have hT := combined_gen (z := [q]) (fun q' hq' => by
        rw [List.mem_singleton] at hq'; subst hq'; rw [hq1]; exact hm.2)
      (fun q' hq' => by rw [List.mem_singleton] at hq'; subst hq'; rw [hq1]; exact hm.1) hC
    have hf' : List.Forall₂ (fun (e : K × ℕ × List A) (y : CustomCandidate K O) => y.key = e.1 ∧
        y.outputs = customCompute ([q].map readyGen) e.2) out x := by
      refine hf.imp ?_
      intro e y h
      split at h
      · cases h
      · cases h; exact ⟨rfl, rfl⟩
    have hkeys : x.map CustomCandidate.key = out.map Prod.fst :=
      forall₂_map hf' Prod.fst CustomCandidate.key fun a b h => h.1
    refine ⟨en, q.2.2, hen, hne, hq3, by rw [hkeys]; exact hC.nodup, fun k => ?_, fun y hy => ?_⟩
    · rw [hkeys, hC.keys, List.map_map]
      have := lists_keys none en k
      simpa using this
    · obtain ⟨e, he, h1, h2⟩ := forall₂_mem hf' hy
      have hT := hT e he
      rw [valuesOf_lists, ← h1] at hT
      rw [hT, customCompute_gen] at h2
      rw [h2, ← hq1]
      rfl

theorem exactVector_eq (sigma : ℝ → ℝ → ℝ → ℝ) (vec : V → List ℚ) (p : Params) {pid : R → P} {c : CustomCall R K V} {data : List R}
    {en : List ((P × K) × List V)} (h : (rowsBehind en).Perm (c.rows pid data)) (k : K) (j : ℕ) :
    (vectorClass sigma vec).total p (listsOf none en k) j = exactVector vec c data k j := by
  rw [vectorClass_total]
  have h1 := entries_sum_rows (fun v : V => (vec v).getD j 0) k h
  simp only [listsOf, List.append_nil, List.map_map]
  refine Eq.trans ?_ (h1.trans ?_)
  · rfl
  · unfold valuesIn CustomCall.rows exactVector
    rw [List.filter_map, List.map_map, List.map_map]
    rfl

theorem vector_clipped (sigma : ℝ → ℝ → ℝ → ℝ) (vec : V → List ℚ) {p : Params} {l0 linf n : ℕ} {M : ℚ} {kind : NormKind}
    (hp : VectorParams p l0 linf n M kind) (a : ℕ → ℚ) :
    ∃ w : Fin n → ℝ, ClippedTo M kind (fun j : Fin n => ((a j : ℚ) : ℝ)) w ∧ ∀ bs, (vectorClass sigma vec).compute p bs a
      = (Measure.pi fun j : Fin n => noisy (vectorMechanism sigma p (bs.headD (0, 0))) (w j)).map (padded n) := by
  obtain ⟨w, w1, w2, w3, w4, w5⟩ := vectorClass_compute sigma vec hp
  by_cases hk : kind = .l1
  · subst hk
    have hM : (0 : ℝ) ≤ (M : ℝ) := by exact_mod_cast hp.norm_nonneg
    obtain ⟨v, v1, v2, v3, v4⟩ := C18_clipped_vector_is_in_ball (List.ofFn fun j : Fin n => ((a j : ℚ) : ℝ)) (M : ℝ) hM .l1 hp.supported
    have hlen : v.length = n := by rw [v2, List.length_ofFn]
    have hof : (List.ofFn fun j : Fin n => v.getD j 0) = v := by
      apply List.ext_getElem (by simp [hlen])
      intro j hj hj'
      rw [List.getElem_ofFn]
      exact List.getD_eq_getElem _ _ hj'
    refine ⟨fun j => v.getD j 0, ⟨by rw [hof]; exact v3, fun h => ?_, (fun h => nomatch h), fun _ c hc hc0 hMc j => ?_,
      (fun h => nomatch h)⟩, fun bs => ?_⟩
    · funext j
      rw [v4 h, List.getD_eq_getElem _ _ (by simp)]
      simp
    · have hj : (j : ℕ) < n := j.2
      simp only [clipVector, scaleTo, Except.ok.injEq, List.map_ofFn, List.sum_ofFn, Function.comp_def] at v1
      rw [← hc] at v1
      rw [← v1, List.getD_eq_getElem _ _ (by simp)]
      have hcpos : 0 < c := lt_of_le_of_ne (hc ▸ Finset.sum_nonneg fun _ _ => abs_nonneg _) (Ne.symm hc0)
      simp [hc0, min_eq_right ((div_le_one hcpos).mpr hMc)]
    · simp only [vectorClass, hp.size, hp.norm, hp.normKind, Option.getD_some]
      unfold vectorLaw
      rw [v1]
  · exact ⟨fun j => w a j, ⟨w2 a, fun h => funext fun j => w4 a h j j.2, fun h j => w3 h a j j.2, fun h => absurd h hk,
      fun h c hc hc0 hM j => w5 h a c hc hc0 hM j j.2⟩, fun bs => w1 bs a⟩

theorem coordinate_law {n : ℕ} (laws : Fin n → Measure ℝ) [∀ j, IsProbabilityMeasure (laws j)] (j : Fin n) :
    ((Measure.pi laws).map (padded n)).map (fun x => x j) = laws j := by
  rw [Measure.map_map (measurable_pi_apply _) (measurable_padded n)]
  have : ((fun x : ℕ → ℝ => x j) ∘ padded n) = Function.eval j := by
    funext x
    simp [padded]
  rw [this]
  exact (measurePreserving_eval laws j).map_eq

/-! ### Main theorem -/

/-- **C94.**  A call with VECTOR_SUM and private partitions, with data within the bounds, considers every partition of the data once, and
for each it has one vector: coordinates are independent, each one is around the exact sum of the coordinate over all rows if the norm of
the sum is at most `vector_max_norm`, and around the clipped sum otherwise. -/
theorem C94_vector_sum_is_accurate (lib : Library) (hlib : lib.Contract) (vec : ℕ → V → List ℚ) (c : CustomCall R K V) {o i : ℕ}
    {l0 linf n : ℕ} {M : ℚ} {kind : NormKind} (hp : VectorParams c.params l0 linf n M kind)
    (hmax : c.params.maxContributions = none) (ho : c.combiners = [o]) (hpub : c.partitions = none) {s : Specs} {st : Store}
    (hst : st o = some (c.params, [i])) {eps delta : ℝ} (hs : BudgetsAre s [i] [(eps, delta)]) (heps : 0 < eps)
    (hdelta : c.params.noiseKind = .gaussian → 0 < delta) {env : Env K} (henv : env.Lawful) (pid : R → P) (sel : Option ℕ)
    (data : List R) (hw : c.Within pid data) {x}
    (hx : evalCustom (fun o => vectorClass lib.sigma (vec o)) s st env pid sel data c = .ok x) :
    (x.map CustomCandidate.key).Nodup ∧ (∀ k, k ∈ x.map CustomCandidate.key ↔ ∃ r ∈ data, c.key r = k) ∧
    ∀ y ∈ x, ∃ ρ, y.outputs = [ρ] ∧ VectorReleased lib.sigma c.params.noiseKind l0 linf n M kind eps delta
      (fun j : Fin n => (exactVector (vec o) c data y.key j : ℝ)) ρ := by
  obtain ⟨en, bs, hen, hne, hbs, hnd, hk, hy⟩ := vector_outputs (cls := fun o => vectorClass lib.sigma (vec o)) henv
    (Or.inr ⟨l0, linf, hp.l0_pos, hp.linf_pos, hmax, hp.partitions, hp.perPartition⟩) hpub
    (by simp [CustomCall.sampling, ho, vectorClass]) hw ho hst
    ⟨fun a b => funext fun j => add_comm _ _, fun a b d => funext fun j => add_assoc _ _ _⟩ hx
  have hbs' : bs = [(eps, delta)] := by
    cases hbs with
    | cons h1 h2 =>
      cases h2
      cases hs with
      | cons g1 g2 =>
        have e1 := h1.1.symm.trans g1.1
        have e2 := h1.2.symm.trans g1.2
        simp only [Except.ok.injEq] at e1 e2
        rw [← e1, ← e2]
  subst hbs'
  refine ⟨hnd, fun k => ?_, fun y hyx => ⟨_, hy y hyx, ?_⟩⟩
  · rw [hk]
    constructor
    · intro h
      obtain ⟨e, he, rfl⟩ := List.mem_map.mp h
      obtain ⟨v, hv⟩ := List.exists_mem_of_ne_nil _ (hne e he)
      have hmem : (e.1.1, e.1.2, v) ∈ rowsBehind en := List.mem_flatMap.mpr ⟨e, he, List.mem_map.mpr ⟨v, hv, rfl⟩⟩
      obtain ⟨r, hr, heq⟩ := List.mem_map.mp (hen.subset hmem)
      exact ⟨r, hr, congrArg (fun t => t.2.1) heq⟩
    · rintro ⟨r, hr, rfl⟩
      have hmem : (pid r, c.key r, c.value r) ∈ rowsBehind en := hen.symm.subset (List.mem_map.mpr ⟨r, hr, rfl⟩)
      obtain ⟨e, he, hv⟩ := List.mem_flatMap.mp hmem
      obtain ⟨v, -, heq⟩ := List.mem_map.mp hv
      exact List.mem_map.mpr ⟨e, he, congrArg (fun t => t.2.1) heq⟩
  · obtain ⟨w, hclip, w1⟩ := vector_clipped lib.sigma (vec o) hp (exactVector (vec o) c data y.key)
    have hex : (vectorClass lib.sigma (vec o)).total c.params (listsOf none en y.key) = exactVector (vec o) c data y.key :=
      funext fun j => exactVector_eq lib.sigma (vec o) c.params hen y.key j
    have hacc : ∀ j : Fin n, CoordinateAccurate lib.sigma c.params.noiseKind l0 linf n eps delta
        (w j)
        (noisy (vectorMechanism lib.sigma c.params (eps, delta)) (w j)) := by
      intro j
      have hn : (0 : ℝ) < n := by exact_mod_cast hp.size_pos
      have h0 : (0 : ℝ) < l0 := by exact_mod_cast hp.l0_pos
      have hi : (0 : ℝ) < linf := by exact_mod_cast hp.linf_pos
      rw [vectorMechanism_eq lib.sigma hp]
      unfold CoordinateAccurate
      cases hk : c.params.noiseKind with
      | laplace =>
        have : (n : ℝ) * (l0 * linf) / eps = l1Sens l0 linf / (eps / n) := by
          unfold l1Sens; field_simp
        simp only
        rw [this]
        exact laplace_around (by unfold l1Sens; positivity) _ _
      | gaussian =>
        have hd := hdelta hk
        simp only
        exact gaussian_around (hlib.gaussian.pos _ _ _ (by positivity) (by positivity) (by unfold l2Sens; positivity)) _ _
    have hprob : ∀ j : Fin n, IsProbabilityMeasure
        (noisy (vectorMechanism lib.sigma c.params (eps, delta)) (w j)) := by
      intro j
      have := hacc j
      unfold CoordinateAccurate at this
      cases hk : c.params.noiseKind <;> rw [hk] at this <;> exact this.prob
    refine ⟨w, fun j => noisy (vectorMechanism lib.sigma c.params (eps, delta)) (w j), hclip, ?_, hacc, fun j => ?_⟩
    · rw [hex, w1]; rfl
    · rw [hex, w1]
      exact @coordinate_law n _ hprob j

/-! ### One call with a total budget -/

theorem vector_eval_ok {cls : ℕ → CustomClass V A O} {s : Specs} {st : Store} {env : Env K} (henv : env.Lawful) {pid : R → P}
    {data : List R} {c : CustomCall R K V} (hb : c.params.BoundsValid) (hpub : c.partitions = none)
    (hsam : c.sampling cls = true) (hw : c.Within pid data) {o i l0 : ℕ} (ho : c.combiners = [o]) {p is bs}
    (hst : st o = some (p, is)) (hbs : readBudgets s is = .ok bs) (hpt : c.params.postThresholding = false)
    (hl0 : c.params.maxPartitions = some l0) {e d : ℝ} (he : computed (s i).eps = .ok e) (hd : computed (s i).delta = .ok d) :
    ∃ x, evalCustom cls s st env pid (some i) data c = .ok x := by
  have hr : c.combiners.mapM (ready cls s st) = .ok [⟨(cls o).create p, (cls o).merge p, (cls o).compute p bs⟩] := by
    rw [ho, List.mapM_cons]
    simp only [ready, hst, hbs]
    rfl
  obtain ⟨m, hm⟩ := maxRowsPerId_ok c.params hb
  obtain ⟨en, -, -, ha⟩ := accumulators_all env.backend henv.backend c.params hb
    (customCreate [⟨(cls o).create p, (cls o).merge p, (cls o).compute p bs⟩]) (c.rows pid data) hw
  unfold evalCustom
  rw [hr]
  dsimp only
  rw [hsam, hpub, ha]
  dsimp only
  have : ∀ n, ∃ g, customGate s c.params (some i) n = .ok g := by
    intro n
    simp only [customGate, hpt, hm, hl0, natArg, selectGate, he, hd]
    exact ⟨_, rfl⟩
  choose g hg using this
  simp only [hg]
  generalize env.combine _ _ = l
  induction l with
  | nil => exact ⟨[], rfl⟩
  | cons y l ih =>
    obtain ⟨x, hx⟩ := ih
    exact ⟨_, by rw [List.mapM_cons, hx]; rfl⟩

/-- **C94** (one call).  An `aggregate` with VECTOR_SUM of weight `w` over private partitions, alone on a naive accountant with the total
budget (`e`, `d`), succeeds on data within the bounds; the sum gets the epsilon `e * w / (w + 1)`, with Gaussian noise also the delta
`d * w / (w + 1)`, and the rest is for partition selection. -/
theorem C94_one_vector_sum (fmt : ℚ → String) (lib : Library) (hlib : lib.Contract) (vec : ℕ → V → List ℚ) (c : CustomCall R K V)
    {o l0 linf n : ℕ} {M : ℚ} {kind : NormKind} (hp : VectorParams c.params l0 linf n M kind)
    (hmax : c.params.maxContributions = none) (ho : c.combiners = [o]) (hpub : c.partitions = none)
    (hpt : c.params.postThresholding = false) (hpf : c.params.publicFiltered = false) (hw0 : 0 < c.params.budgetWeight)
    {e d : ℚ} {s0} (h0 : Budget.init e d none none = .ok s0) (hd : 0 < d) (st : Store) :
    let cls := fun o => vectorClass lib.sigma (vec o)
    ∃ bs ops st', planX cls fmt [] st [.custom c] = .ok (bs, ops, st') ∧
      (Budget.step (Budget.run s0 ops).1 .compute).2 = .unit ∧
      ∀ (env : ℕ → Env K), (env 0).Lawful → ∀ (pid : R → P) (data : List R), c.Within pid data →
        ∃ x, evalX cls lib.sigma (specOf (Budget.step (Budget.run s0 ops).1 .compute).1) st' env pid data 0 [.custom c] bs
            = .ok [([], x)] ∧
          (x.map CustomCandidate.key).Nodup ∧ (∀ k, k ∈ x.map CustomCandidate.key ↔ ∃ r ∈ data, c.key r = k) ∧
          ∀ y ∈ x, ∃ ρ, y.outputs = [ρ] ∧ VectorReleased lib.sigma c.params.noiseKind l0 linf n M kind
            (e * c.params.budgetWeight / (c.params.budgetWeight + 1) : ℚ) (d * c.params.budgetWeight / (c.params.budgetWeight + 1) : ℚ)
            (fun j : Fin n => (exactVector (vec o) c data y.key j : ℝ)) ρ := by
  intro cls
  obtain ⟨he, -, -, rfl, -, -⟩ := Budget.init_facts h0
  set w := c.params.budgetWeight with hw
  have hbuild : buildCustom cls [] st c = .ok (.custom [[0]] (some 1), [⟨c.params.noiseKind.mechanism, w⟩, ⟨.generic, 1⟩],
      callOps w [⟨c.params.noiseKind.mechanism, w⟩, ⟨.generic, 1⟩], Function.update st o (some (c.params, [0]))) := by
    simp [buildCustom, setCombiners, requestAll, cls, vectorClass, ho, requestBudget, selectsPrivately, hpub, hpt, hpf, hw]
  have hw1 : w + 1 ≠ 0 := by positivity
  have hw2 : w ≠ 0 := hw0.ne'
  have hplan : planX cls fmt [] st [.custom c] = .ok ([.custom [[0]] (some 1)],
      callOps w [⟨c.params.noiseKind.mechanism, w⟩, ⟨.generic, 1⟩] ++ [], Function.update st o (some (c.params, [0]))) := by
    simp only [planX, buildX, hbuild]
  have hd' : d ≠ 0 := hd.ne'
  have hrun : ∃ m0 m1 : Budget.Mech, ∃ aw,
      (Budget.run ⟨e, d, none, none, [], [], [], false⟩ (callOps w [⟨c.params.noiseKind.mechanism, w⟩, ⟨.generic, 1⟩] ++ [])).1
        = ⟨e, d, none, none, aw, [], [m0, m1], false⟩ ∧
      m0 = ⟨toMechType c.params.noiseKind.mechanism, 1, w / (w + 1) * w, 1, none, none⟩ ∧
      m1 = ⟨.generic, 1, w / (w + 1) * 1, 1, none, none⟩ := by
    refine ⟨_, _, [w], ?_, rfl, rfl⟩
    cases hk : c.params.noiseKind <;>
    simp [callOps, NoiseKind.mechanism, toMechType, Budget.run, Budget.step, Budget.requestBudget, Budget.enterScope,
      Budget.register, Budget.computeBudgetForAggregation, Budget.truthyNum, Budget.truthyList, Budget.exitScope, Budget.weightAt, hw1, hd',
      Budget.scaleAll, mul_comm]
  obtain ⟨m0, m1, aw, hr, hm0, hm1⟩ := hrun
  refine ⟨_, _, _, hplan, ?_, ?_⟩
  · rw [hr]
    simp [Budget.step, Budget.computeBudgets, Budget.checkRestrictions, Budget.truthyNum, Budget.truthyList]
  intro env henv pid data hwithin
  rw [hr]
  generalize hfin : (Budget.step ⟨e, d, none, none, aw, [], [m0, m1], false⟩ .compute).1 = fin
  have htot : w / (w + 1) * w + w / (w + 1) = w := by field_simp
  have hmechs : ∃ d0 d1, fin.mechs = [⟨toMechType c.params.noiseKind.mechanism, 1, w / (w + 1) * w, 1, some (e * w / (w + 1)), some d0⟩,
      ⟨.generic, 1, w / (w + 1) * 1, 1, some (e / (w + 1)), some d1⟩] ∧ (c.params.noiseKind = .gaussian → d0 = d * w / (w + 1)) := by
    rw [← hfin, hm0, hm1]
    have hsc : e * (w / (w + 1) * w) / w = e * w / (w + 1) := by field_simp
    have hsc' : e * (w / (w + 1)) / w = e / (w + 1) := by field_simp
    have hsd : d * (w / (w + 1) * w) / w = d * w / (w + 1) := by field_simp
    have hsd' : d * (w / (w + 1)) / w = d / (w + 1) := by field_simp
    cases hk : c.params.noiseKind
    · refine ⟨0, d, ?_, fun h => nomatch h⟩
      simp only [Budget.step, Budget.computeBudgets, Budget.checkRestrictions, Budget.truthyNum, Budget.truthyList]
      simp [Budget.totalWeightEps, Budget.totalWeightDelta, Budget.Mech.useDelta, Budget.assign, htot, hw1, hw2, hsc, hsc',
        NoiseKind.mechanism, toMechType]
    · refine ⟨d * w / (w + 1), d / (w + 1), ?_, fun _ => rfl⟩
      simp only [Budget.step, Budget.computeBudgets, Budget.checkRestrictions, Budget.truthyNum, Budget.truthyList]
      simp [Budget.totalWeightEps, Budget.totalWeightDelta, Budget.Mech.useDelta, Budget.assign, htot, hw2, hsc, hsc', hsd, hsd',
        NoiseKind.mechanism, toMechType]
  obtain ⟨d0, d1, hmechs, hd0⟩ := hmechs
  have hs0 : computed (specOf fin 0).eps = .ok ((e * w / (w + 1) : ℚ) : ℝ) ∧ computed (specOf fin 0).delta = .ok ((d0 : ℚ) : ℝ) := by
    simp [specOf, hmechs, computed]
  have hs1 : computed (specOf fin 1).eps = .ok ((e / (w + 1) : ℚ) : ℝ) ∧ computed (specOf fin 1).delta = .ok ((d1 : ℚ) : ℝ) := by
    simp [specOf, hmechs, computed]
  have hread : readBudgets (specOf fin) [0] = .ok [(((e * w / (w + 1) : ℚ) : ℝ), ((d0 : ℚ) : ℝ))] := by
    simp only [readBudgets, hs0]
  have hb : c.params.BoundsValid := Or.inr ⟨l0, linf, hp.l0_pos, hp.linf_pos, hmax, hp.partitions, hp.perPartition⟩
  have hsam : c.sampling cls = true := by simp [CustomCall.sampling, ho, cls, vectorClass]
  have hst' : Function.update st o (some (c.params, [0])) o = some (c.params, [0]) := by simp
  obtain ⟨x, hx⟩ := vector_eval_ok (cls := cls) henv hb hpub hsam hwithin ho hst' hread hpt hp.partitions hs1.1 hs1.2
  have hpos : (0 : ℝ) < ((e * w / (w + 1) : ℚ) : ℝ) := by
    have : 0 < e * w / (w + 1) := by positivity
    exact_mod_cast this
  have hdpos : 0 < d * w / (w + 1) := by positivity
  obtain ⟨r1, r2, r3⟩ := C94_vector_sum_is_accurate lib hlib vec c hp hmax ho hpub hst' (List.Forall₂.cons hs0 List.Forall₂.nil) hpos
    (fun h => by rw [hd0 h]; exact_mod_cast hdpos) henv pid (some 1) data hwithin hx
  refine ⟨x, ?_, r1, r2, fun y hy => ?_⟩
  · simp only [evalX, evalXStep]
    rw [hx]
  · obtain ⟨ρ, q1, a, laws, q2, q3, q4, q5⟩ := r3 y hy
    refine ⟨ρ, q1, a, laws, q2, q3, fun j => ?_, q5⟩
    have := q4 j
    unfold CoordinateAccurate at this ⊢
    cases hk : c.params.noiseKind with
    | laplace => rw [hk] at this; exact this
    | gaussian => rw [hk] at this; rw [hd0 hk] at this; exact this

/-- Sums of arrays of length 3 per day, coordinates clipped to 10; at most 2 days and 4 arrays per day. -/
def exampleVectorCall : CustomCall (ℕ × ℕ × ℚ) ℕ (Fin 3 → ℚ) :=
  ⟨exampleVector .laplace .linf 10, none, fun r => r.2.1, fun r => ![r.2.2, 1, 0], [0]⟩

/-- Two users on day 0, whose arrays add up to (12, 2, 0), and one on day 1. -/
def exampleVectorData : List (ℕ × ℕ × ℚ) := [(1, 0, 7), (2, 0, 5), (1, 1, 3)]

theorem exampleVector_within : exampleVectorCall.Within Prod.fst exampleVectorData := by
  intro _
  refine ⟨fun u => ⟨(fun m h => by cases h), fun _ l0 h => ?_⟩, fun u k linf h => ?_⟩
  · cases h
    refine le_trans (List.Subperm.length_le (List.Nodup.subperm (l₂ := [0, 1]) (List.nodup_dedup _) ?_)) (le_refl 2)
    intro k hk
    unfold partitionsOf at hk
    simp only [List.mem_dedup, List.mem_map, List.mem_filter, CustomCall.rows, exampleVectorData, exampleVectorCall, List.map_cons,
      List.map_nil, List.mem_cons, List.not_mem_nil, or_false] at hk
    obtain ⟨r, ⟨hr, -⟩, rfl⟩ := hk
    rcases hr with rfl | rfl | rfl <;> simp
  · cases h
    refine le_trans ?_ (show 3 ≤ 4 by norm_num)
    refine (List.length_map _).trans_le ((List.length_filter_le _ _).trans ?_)
    simp [CustomCall.rows, exampleVectorData]

/-- With the total budget (1, 1/1000) the sum gets half of the epsilon.  On day 0 the first coordinate, which is 12, is released
around 10, and the second one around its exact value 2, both with Laplace noise of scale 48. -/
example (fmt : ℚ → String) (env : ℕ → Env ℕ) (henv : (env 0).Lawful) :
    ∃ s0 bs ops st', Budget.init 1 (1 / 1000) none none = .ok s0 ∧
      planX (fun _ => vectorClass exampleLibrary.sigma fun v : Fin 3 → ℚ => List.ofFn v) fmt [] (fun _ => none)
        [.custom exampleVectorCall] = .ok (bs, ops, st') ∧
      ∃ x, evalX (fun _ => vectorClass exampleLibrary.sigma fun v : Fin 3 → ℚ => List.ofFn v) exampleLibrary.sigma
          (specOf (Budget.step (Budget.run s0 ops).1 .compute).1) st' env Prod.fst exampleVectorData 0 [.custom exampleVectorCall] bs
            = .ok [([], x)] ∧
        (∀ k, k ∈ x.map CustomCandidate.key ↔ k = 0 ∨ k = 1) ∧
        ∀ y ∈ x, y.key = 0 → ∃ ρ, y.outputs = [ρ] ∧ LaplaceAround (ρ.map fun x => x 0) 10 48 ∧
          LaplaceAround (ρ.map fun x => x 1) 2 48 := by
  have h0 : Budget.init 1 (1 / 1000) none none = .ok ⟨1, 1 / 1000, none, none, [], [], [], false⟩ := by decide +kernel
  obtain ⟨bs, ops, st', hp, -, h⟩ := C94_one_vector_sum (P := ℕ) fmt exampleLibrary exampleLibrary_contract
    (fun _ v => List.ofFn v) exampleVectorCall (exampleVector_params .laplace .linf 10 (by norm_num) (by decide)) rfl rfl rfl rfl rfl
    (show (0 : ℚ) < 1 by norm_num) h0 (by norm_num) fun _ => none
  obtain ⟨x, hx, -, hk, hy⟩ := h env henv Prod.fst exampleVectorData exampleVector_within
  refine ⟨_, bs, ops, st', h0, hp, x, hx, fun k => ?_, fun y hyx hy0 => ?_⟩
  · rw [hk]
    simp [exampleVectorData, exampleVectorCall, eq_comm]
  · obtain ⟨ρ, hρ, w, laws, hclip, -, hacc, hlaw⟩ := hy y hyx
    have e0 : exactVector (fun v : Fin 3 → ℚ => List.ofFn v) exampleVectorCall exampleVectorData 0 0 = 12 := by decide +kernel
    have e1 : exactVector (fun v : Fin 3 → ℚ => List.ofFn v) exampleVectorCall exampleVectorData 0 1 = 2 := by decide +kernel
    have w0 := hclip.linf rfl 0
    have w1 := hclip.linf rfl 1
    have a0 := hacc 0
    have a1 := hacc 1
    simp only [hy0, Fin.val_zero, Fin.val_one, e0, e1] at w0 w1
    rw [w0, ← hlaw 0] at a0
    rw [w1, ← hlaw 1] at a1
    simp only [CoordinateAccurate, exampleVectorCall, exampleVector] at a0 a1
    norm_num at a0 a1
    exact ⟨ρ, hρ, a0, a1⟩

end PDP.EndToEnd
