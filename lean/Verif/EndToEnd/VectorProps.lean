import Verif.EndToEnd.Vector

/-! # VECTOR_SUM in a pipeline: privacy (C79) -/

set_option linter.unusedSectionVars false

namespace PDP.EndToEnd

open PDP PDP.Engine PDP.Approx MeasureTheory
open PDP.Engine.Mechanism (Additive computed)
open PDP.Engine.AddNoise (specOf)
open PDP.Budget (State Op MechType Out)

variable {R P K V : Type} [DecidableEq P] [DecidableEq K]

/-! ### The class is the code's combiner -/

theorem zipWith_getD (a b : List ℚ) {n : ℕ} (ha : a.length = n) (hb : b.length = n) (j : ℕ) :
    (List.zipWith (· + ·) a b).getD j 0 = a.getD j 0 + b.getD j 0 := by
  by_cases hj : j < n
  · rw [List.getD_eq_getElem _ _ (by simp [ha, hb, hj]), List.getD_eq_getElem _ _ (by omega), List.getD_eq_getElem _ _ (by omega)]
    simp
  · rw [List.getD_eq_default _ _ (by simp [ha, hb]; omega), List.getD_eq_default _ _ (by omega), List.getD_eq_default _ _ (by omega), add_zero]

theorem vectorSum_create {n : ℕ} (vs : List (List ℚ)) (hne : vs ≠ []) (hl : ∀ v ∈ vs, v.length = n) :
    ∃ u, (Combiner.vectorSum n).create vs = .vec u ∧ u.length = n ∧ ∀ j, u.getD j 0 = (vs.map fun v => v.getD j 0).sum := by
  have key : ∀ (vs : List (List ℚ)) (a : List ℚ), a.length = n → (∀ v ∈ vs, v.length = n) →
      ∃ u, vs.foldl (Combiner.vecStep n) (.vec a) = .vec u ∧ u.length = n ∧
        ∀ j, u.getD j 0 = a.getD j 0 + (vs.map fun v => v.getD j 0).sum := by
    intro vs
    induction vs with
    | nil => intro a ha _; exact ⟨a, rfl, ha, by simp⟩
    | cons v vs ih =>
      intro a ha h
      have hv : v.length = n := h v (by simp)
      obtain ⟨u, h1, h2, h3⟩ := ih (List.zipWith (· + ·) a v) (by simp [ha, hv]) fun x hx => h x (by simp [hx])
      refine ⟨u, ?_, h2, fun j => ?_⟩
      · rw [List.foldl_cons]
        simp only [Combiner.vecStep, hv, if_pos]
        exact h1
      · rw [h3, zipWith_getD a v ha hv, List.map_cons, List.sum_cons, add_assoc]
  cases vs with
  | nil => exact absurd rfl hne
  | cons v vs =>
    have hv : v.length = n := hl v (by simp)
    obtain ⟨u, h1, h2, h3⟩ := key vs v hv fun x hx => hl x (by simp [hx])
    refine ⟨u, ?_, h2, fun j => by rw [h3, List.map_cons, List.sum_cons]⟩
    show (v :: vs).foldl (Combiner.vecStep n) .empty = _
    rw [List.foldl_cons]
    simp only [Combiner.vecStep, hv, if_pos]
    exact h1

theorem vecMerge_tree {n : ℕ} (t : MergeTree Combiner.VecAcc) (h : ∀ a ∈ t.leaves, ∃ u, a = .vec u ∧ u.length = n)
    (c : Combiner.VecAcc → ℕ → ℚ) (hc : ∀ u j, c (.vec u) j = u.getD j 0) :
    ∃ u, t.eval Combiner.vecMerge = .vec u ∧ u.length = n ∧ ∀ j, u.getD j 0 = (t.leaves.map fun a => c a j).sum := by
  induction t with
  | leaf a =>
    obtain ⟨u, rfl, hu⟩ := h a (by simp [MergeTree.leaves])
    exact ⟨u, rfl, hu, fun j => by simp [MergeTree.leaves, hc]⟩
  | node l r ihl ihr =>
    obtain ⟨u, h1, h2, h3⟩ := ihl fun a ha => h a (by simp [MergeTree.leaves, ha])
    obtain ⟨u', h1', h2', h3'⟩ := ihr fun a ha => h a (by simp [MergeTree.leaves, ha])
    refine ⟨List.zipWith (· + ·) u u', ?_, by simp [h2, h2'], fun j => ?_⟩
    · rw [MergeTree.eval, h1, h1']; rfl
    · rw [zipWith_getD u u' h2 h2', h3, h3', MergeTree.leaves, List.map_append, List.sum_append]

/-- **C79** (the modelled sum is what the combiner computes).  If every list of arrays is non-empty and all arrays have `vector_size`
elements, then merging the accumulators of `VectorSumCombiner` in any order and grouping gives the array of the class. -/
theorem C79_same_sums (sigma : ℝ → ℝ → ℝ → ℝ) (vec : V → List ℚ) (p : Params) (n : ℕ) (l : List (List V))
    (hne : ∀ vs ∈ l, vs ≠ []) (hl : ∀ vs ∈ l, ∀ v ∈ vs, (vec v).length = n) (t : MergeTree Combiner.VecAcc)
    (ht : t.leaves.Perm (l.map fun vs => (Combiner.vectorSum n).create (vs.map vec))) :
    t.eval Combiner.vecMerge = .vec (List.ofFn fun j : Fin n => (vectorClass sigma vec).total p l j) := by
  have hleaf : ∀ vs ∈ l, ∃ u, (Combiner.vectorSum n).create (vs.map vec) = .vec u ∧ u.length = n ∧
      ∀ j, u.getD j 0 = (vs.map fun v => (vec v).getD j 0).sum := by
    intro vs hvs
    obtain ⟨u, h1, h2, h3⟩ := vectorSum_create (n := n) (vs.map vec) (by simpa using hne vs hvs) (by
      intro v hv
      obtain ⟨x, hx, rfl⟩ := List.mem_map.mp hv
      exact hl vs hvs x hx)
    exact ⟨u, h1, h2, fun j => by rw [h3, List.map_map]; rfl⟩
  let c : Combiner.VecAcc → ℕ → ℚ := fun a j => match a with
    | .vec u => u.getD j 0
    | _ => 0
  obtain ⟨u, h1, h2, h3⟩ := vecMerge_tree (n := n) t (by
    intro a ha
    obtain ⟨vs, hvs, rfl⟩ := List.mem_map.mp (ht.subset ha)
    obtain ⟨u, h1, h2, -⟩ := hleaf vs hvs
    exact ⟨u, h1, h2⟩) c fun _ _ => rfl
  rw [h1]
  congr 1
  apply List.ext_getElem (by simp [h2])
  intro j hj hj'
  have h4 := h3 j
  rw [List.getD_eq_getElem _ _ hj] at h4
  rw [h4, List.getElem_ofFn, vectorClass_total, (ht.map _).sum_eq]
  refine (congrArg List.sum (List.map_map (f := fun vs => (Combiner.vectorSum n).create (vs.map vec))
    (g := fun a => c a j) (l := l))).trans ?_
  congr 1
  apply List.map_congr_left
  intro vs hvs
  obtain ⟨u, h1, -, h5⟩ := hleaf vs hvs
  show c ((Combiner.vectorSum n).create (vs.map vec)) j = _
  rw [h1]
  exact h5 j

/-- Two users in one partition with three arrays of length 2. -/
example : (Combiner.vectorSum 2).merge ((Combiner.vectorSum 2).create [[1, 2], [3, 5]]) ((Combiner.vectorSum 2).create [[1, 0]])
      = .vec (List.ofFn fun j : Fin 2 => (vectorClass (V := List ℚ) (fun _ _ _ => 1) id).total { metrics := [.vectorSum] }
        [[[1, 2], [3, 5]], [[1, 0]]] j) :=
  C79_same_sums _ id _ 2 [[[1, 2], [3, 5]], [[1, 0]]] (by simp) (by simp)
    (.node (.leaf ((Combiner.vectorSum 2).create [[1, 2], [3, 5]])) (.leaf ((Combiner.vectorSum 2).create [[1, 0]])))
    (List.Perm.refl _)

/-- **C79** (the modelled distribution is that of the released vector): the code's release (C18) with independent noise on the
coordinates. -/
theorem C79_same_release (m : Additive) [IsProbabilityMeasure (noiseLaw m)] (n : ℕ) (M : ℝ) (hM : 0 ≤ M) (kind : NormKind)
    (hk : kind ≠ .l0) (a : ℕ → ℚ) :
    ∃ out : (Fin n → ℝ) → List ℝ,
      (∀ t, releaseVector (fun j x => x + padded n t j) M kind (.vec (List.ofFn fun j : Fin n => a j)) = .ok (out t) ∧
        (out t).length = n) ∧
      vectorLaw m n M kind a = (Measure.pi fun _ : Fin n => noiseLaw m).map fun t j => (out t).getD j 0 := by
  obtain ⟨w, h1, h2, -, -⟩ := C18_clipped_vector_is_in_ball (List.ofFn fun j : Fin n => ((a j : ℚ) : ℝ)) M hM kind hk
  have hw : w.length = n := by rw [h2, List.length_ofFn]
  refine ⟨fun t => w.mapIdx fun j x => x + padded n t j, fun t => ⟨?_, by simp [hw]⟩, ?_⟩
  · simp only [releaseVector, List.map_ofFn]
    have : (List.ofFn ((fun x : ℚ => (x : ℝ)) ∘ fun j : Fin n => a j)) = List.ofFn fun j : Fin n => ((a j : ℚ) : ℝ) := rfl
    rw [this, h1]
    rfl
  · unfold vectorLaw
    rw [h1]
    show (Measure.pi fun j : Fin n => noisy m (w.getD j 0)).map (padded n) = _
    unfold noisy
    rw [← Measure.pi_map_pi (μ := fun _ : Fin n => noiseLaw m) (f := fun (j : Fin n) t => w.getD j 0 + t)
      fun j => (measurable_const_add _).aemeasurable]
    have hmeas : Measurable fun (t : Fin n → ℝ) (j : Fin n) => w.getD j 0 + t j :=
      measurable_pi_iff.mpr fun j => (measurable_const_add _).comp (measurable_pi_apply j)
    rw [Measure.map_map (measurable_padded n) hmeas]
    congr 1
    funext t j
    show padded n (fun j : Fin n => w.getD j 0 + t j) j = (w.mapIdx fun j x => x + padded n t j).getD j 0
    by_cases hj : j < n
    · rw [List.getD_eq_getElem _ _ (by simp [hw, hj])]
      simp [padded, hj, hw]
    · rw [List.getD_eq_default _ _ (by simp [hw]; omega)]
      simp [padded, hj]

/-- **C79** (the modelled budgets are what the engine requests): for a call with the metric VECTOR_SUM alone and private partitions,
the engine builds one combiner and requests one budget with the mechanism of the noise kind and the weight of the call, and one for
partition selection; so does the call with the object `o` of the class. -/
theorem C79_same_requests (fmt : ℚ → String) (sigma : ℝ → ℝ → ℝ → ℝ) (vec : ℕ → V → List ℚ) (c : CustomCall R K V) (o : ℕ)
    (ho : c.combiners = [o]) (hm : c.params.metrics = [.vectorSum]) (hpub : c.partitions = none)
    (hpt : c.params.postThresholding = false) (hpf : c.params.publicFiltered = false) (rs : List Request) (st : Store)
    (value : R → ℚ) :
    build fmt rs (.aggregate c.params c.partitions c.key value) = (.ok ⟨[.vectorSum rs.length], some (rs.length + 1)⟩,
      rs ++ [⟨c.params.noiseKind.mechanism, c.params.budgetWeight⟩, ⟨.generic, 1⟩]) ∧
    ∃ st', buildCustom (fun o => vectorClass sigma (vec o)) rs st c = .ok (.custom [[rs.length]] (some (rs.length + 1)),
      rs ++ [⟨c.params.noiseKind.mechanism, c.params.budgetWeight⟩, ⟨.generic, 1⟩],
      callOps c.params.budgetWeight [⟨c.params.noiseKind.mechanism, c.params.budgetWeight⟩, ⟨.generic, 1⟩], st') ∧
      st' o = some (c.params, [rs.length]) := by
  constructor
  · simp [build, createCompound, scalarParts, privacyIdPart, vectorPart, quantilePart, hm, requestBudget, Metric.percentile?, Part.names,
      selectsPrivately, hpub, hpt, hpf]
  · refine ⟨Function.update st o (some (c.params, [rs.length])), ?_, by simp⟩
    simp [buildCustom, setCombiners, requestAll, vectorClass, ho, requestBudget, selectsPrivately, hpub, hpt, hpf]

/-! ### One user's change -/

theorem sum_over_keys {ι : Type} [Fintype ι] (f : ι → K) (hf : Function.Injective f) (keys : List K) (g : K → ℝ) {c : ℝ} {l0 : ℕ}
    (hc : 0 ≤ c) (hk : keys.dedup.length ≤ l0) (hg : ∀ k, g k ≤ c) (hz : ∀ k, k ∉ keys → g k = 0) : ∑ i, g (f i) ≤ l0 * c := by
  classical
  calc ∑ i, g (f i) = ∑ k ∈ Finset.univ.map ⟨f, hf⟩, g k := by rw [Finset.sum_map]; rfl
    _ = ∑ k ∈ (Finset.univ.map ⟨f, hf⟩).filter (· ∈ keys), g k := by
        rw [Finset.sum_filter]
        refine Finset.sum_congr rfl fun k _ => ?_
        split
        · rfl
        · rename_i h; exact hz k h
    _ ≤ ((Finset.univ.map ⟨f, hf⟩).filter (· ∈ keys)).card • c := Finset.sum_le_card_nsmul _ _ _ fun k _ => hg k
    _ ≤ l0 * c := by
        rw [nsmul_eq_mul]
        refine mul_le_mul_of_nonneg_right ?_ hc
        have : ((Finset.univ.map ⟨f, hf⟩).filter (· ∈ keys)).card ≤ keys.dedup.length := by
          rw [← List.card_toFinset]
          apply Finset.card_le_card
          intro k hk
          rw [List.mem_toFinset]
          exact (Finset.mem_filter.mp hk).2
        exact_mod_cast this.trans hk

/-- Laplace noise on the coordinates of vectors which differ by at most `S`, summed over the coordinates, in `l0` partitions. -/
theorem vectors_laplace {l0 linf n : ℕ} (p0 : 0 < l0) (pi : 0 < linf) (pn : 0 < n) {e S z : ℝ} (he : 0 < e) (hS : 0 < S)
    (keys : List K) (hk : keys.dedup.length ≤ l0) (x y : K → ℕ → ℝ) (hdiff : ∀ k, ∑ j : Fin n, |x k j - y k j| ≤ S)
    (hoff : ∀ k, k ∉ keys → x k = y k) :
    Close (S / (linf * n) * e) 0
      (fun k => (Measure.pi fun j : Fin n => noisy (.laplace (l1Sens l0 linf / (e / n)) z) (x k j)).map (padded n))
      (fun k => (Measure.pi fun j : Fin n => noisy (.laplace (l1Sens l0 linf / (e / n)) z) (y k j)).map (padded n)) := by
  have q0 : (0 : ℝ) < l0 := by exact_mod_cast p0
  have qi : (0 : ℝ) < linf := by exact_mod_cast pi
  have qn : (0 : ℝ) < n := by exact_mod_cast pn
  have hb : 0 < l1Sens l0 linf / (e / n) := div_pos (mul_pos q0 qi) (div_pos he qn)
  have hprob : ∀ c, IsProbabilityMeasure (noisy (.laplace (l1Sens l0 linf / (e / n)) z) c) := noisy_laplace_prob hb z
  intro ι _ f hf
  have hs : (l0 * S) / (S / (linf * n) * e) = l1Sens l0 linf / (e / n) := by
    unfold l1Sens
    field_simp
  have := laplace_group (ι := ι × Fin n) (e := S / (linf * n) * e) (s := l0 * S) (by positivity) (by positivity)
    (fun q => x (f q.1) q.2) (fun q => y (f q.1) q.2)
    (by
      rw [Fintype.sum_prod_type]
      exact sum_over_keys f hf keys (fun k => ∑ j : Fin n, |x k j - y k j|) hS.le hk hdiff fun k hk => by simp [hoff k hk]) z
  rw [hs] at this
  rw [flat_vectors, flat_vectors]
  have hm : Measurable fun (x : ι → Fin n → ℝ) i => padded n (x i) :=
    measurable_pi_iff.mpr fun i => (measurable_padded n).comp (measurable_pi_apply i)
  exact Indist.map (Indist.map this (MeasurableEquiv.measurable _)) hm

/-- Gaussian noise on the coordinates of vectors which differ by at most `linf` per coordinate in `l0` partitions. -/
theorem vectors_gaussian {sigma : ℝ → ℝ → ℝ → ℝ} (hg : GaussianContract sigma) {l0 linf n : ℕ} (p0 : 0 < l0) (pi : 0 < linf)
    (pn : 0 < n) {e d : ℝ} (he : 0 < e) (hd : 0 < d) (keys : List K) (hk : keys.dedup.length ≤ l0) (x y : K → ℕ → ℝ)
    (hdiff : ∀ k, ∀ j < n, |x k j - y k j| ≤ linf) (hoff : ∀ k, k ∉ keys → x k = y k) :
    Close e d
      (fun k => (Measure.pi fun j : Fin n =>
        noisy (.gaussian (sigma (e / n) (d / n) (l2Sens l0 linf)) (l2Sens l0 linf)) (x k j)).map (padded n))
      (fun k => (Measure.pi fun j : Fin n =>
        noisy (.gaussian (sigma (e / n) (d / n) (l2Sens l0 linf)) (l2Sens l0 linf)) (y k j)).map (padded n)) := by
  have q0 : (0 : ℝ) < l0 := by exact_mod_cast p0
  have qi : (0 : ℝ) < linf := by exact_mod_cast pi
  have qn : (0 : ℝ) < n := by exact_mod_cast pn
  have hx : 0 < l2Sens l0 linf := mul_pos (Real.sqrt_pos.mpr q0) qi
  have hprob : ∀ c, IsProbabilityMeasure (noisy (.gaussian (sigma (e / n) (d / n) (l2Sens l0 linf)) (l2Sens l0 linf)) c) :=
    noisy_gaussian_prob (hg.pos _ _ _ (div_pos he qn) (div_pos hd qn) hx) _
  intro ι _ f hf
  have := indist_vectors (n := n) (e := e / n) (d := d / n) (by positivity)
    (fun (i : ι) (j : Fin n) => noisy (.gaussian (sigma (e / n) (d / n) (l2Sens l0 linf)) (l2Sens l0 linf)) (x (f i) j))
    (fun (i : ι) (j : Fin n) => noisy (.gaussian (sigma (e / n) (d / n) (l2Sens l0 linf)) (l2Sens l0 linf)) (y (f i) j))
    (fun j => by
      refine hg.dp _ _ _ (div_pos he qn) (div_pos hd qn) hx (fun i => x (f i) j) (fun i => y (f i) j) ?_
      have h := sum_over_keys f hf keys (fun k => (x k j - y k j) ^ 2) (c := (linf : ℝ) ^ 2) (by positivity) hk
        (fun k => by
          rw [← sq_abs]
          have := hdiff k j j.2
          exact pow_le_pow_left₀ (abs_nonneg _) this 2) fun k hk => by simp [hoff k hk]
      refine (Real.sqrt_le_sqrt h).trans (le_of_eq ?_)
      rw [Real.sqrt_mul q0.le, Real.sqrt_sq qi.le]
      rfl)
  refine this.mono (le_of_eq ?_) (le_of_eq ?_) <;> field_simp

/-- What one user changes of the clipped coordinates. -/
structure VectorChange (p : Params) (sigma : ℝ → ℝ → ℝ → ℝ) (vec : V → List ℚ) (l0 linf n : ℕ) (M : ℚ) (kind : NormKind)
    (X Y : K → List (List V)) (keys : List K) (x y : K → ℕ → ℝ) : Prop where
  few : keys.dedup.length ≤ l0
  off : ∀ k, k ∉ keys → x k = y k
  xball : ∀ k, InBall M (List.ofFn fun j : Fin n => x k j) kind
  yball : ∀ k, InBall M (List.ofFn fun j : Fin n => y k j) kind
  lipschitz : kind = .linf → ∀ B : ℚ, 0 ≤ B → (∀ v, ∀ x ∈ vec v, |x| ≤ B) → ∀ k, ∀ j < n, |x k j - y k j| ≤ linf * B
  left : ∀ bs k, (vectorClass sigma vec).compute p bs ((vectorClass sigma vec).total p (X k))
    = (Measure.pi fun j : Fin n => noisy (vectorMechanism sigma p (bs.headD (0, 0))) (x k j)).map (padded n)
  right : ∀ bs k, (vectorClass sigma vec).compute p bs ((vectorClass sigma vec).total p (Y k))
    = (Measure.pi fun j : Fin n => noisy (vectorMechanism sigma p (bs.headD (0, 0))) (y k j)).map (padded n)

theorem VectorChange.swap {p : Params} {sigma : ℝ → ℝ → ℝ → ℝ} {vec : V → List ℚ} {l0 linf n : ℕ} {M : ℚ} {kind : NormKind}
    {X Y : K → List (List V)} {keys : List K} {x y : K → ℕ → ℝ} (h : VectorChange p sigma vec l0 linf n M kind X Y keys x y) :
    VectorChange p sigma vec l0 linf n M kind Y X keys y x :=
  ⟨h.few, fun k hk => (h.off k hk).symm, h.yball, h.xball,
    fun h1 B h2 h3 k j hj => by rw [abs_sub_comm]; exact h.lipschitz h1 B h2 h3 k j hj, h.right, h.left⟩

theorem vector_change (sigma : ℝ → ℝ → ℝ → ℝ) (vec : V → List ℚ) {p : Params} {l0 linf n : ℕ} {M : ℚ} {kind : NormKind}
    (hp : VectorParams p l0 linf n M kind) (X Y : K → List (List V)) (E : List (K × List V)) (hE : UserEntries p true E)
    (hXY : ∀ k, (X k).Perm (valuesOf k E ++ Y k)) :
    ∃ x y, VectorChange p sigma vec l0 linf n M kind X Y (E.map Prod.fst) x y := by
  obtain ⟨w, w1, w2, w3, -⟩ := vectorClass_compute sigma vec hp
  have hempty : ∀ k, k ∉ E.map Prod.fst → valuesOf k E = [] := by
    intro k hk
    unfold valuesOf
    rw [List.map_eq_nil_iff, List.filter_eq_nil_iff]
    intro x hx hxk
    exact hk (List.mem_map.mpr ⟨x, hx, by simpa using hxk⟩)
  have htot : ∀ k j, (vectorClass sigma vec).total p (X k) j
      = ((valuesOf k E).map fun vs => (vs.map fun v => (vec v).getD j 0).sum).sum + (vectorClass sigma vec).total p (Y k) j := by
    intro k j
    rw [vectorClass_total, vectorClass_total, ((hXY k).map _).sum_eq, List.map_append, List.sum_append]
  refine ⟨fun k => w ((vectorClass sigma vec).total p (X k)), fun k => w ((vectorClass sigma vec).total p (Y k)),
    hE.partitions l0 hp.partitions, ?_, fun k => w2 _, fun k => w2 _, ?_, fun bs k => w1 _ _, fun bs k => w1 _ _⟩
  · intro k hk
    congr 1
    funext j
    rw [htot, hempty k hk]
    simp
  · intro hk B hB0 hB k j hj
    rw [w3 hk _ j hj, w3 hk _ j hj]
    refine (clamp_lipschitz _ _ _).trans ?_
    rw [← Rat.cast_sub, ← Rat.cast_abs, htot, add_sub_cancel_right]
    have hin : ∀ vs : List V, |(vs.map fun v => (vec v).getD j 0).sum| ≤ vs.length * B := by
      intro vs
      induction vs with
      | nil => simp
      | cons v vs ih =>
        rw [List.map_cons, List.sum_cons, List.length_cons]
        have h1 : |(vec v).getD j 0| ≤ B := by
          by_cases hj : j < (vec v).length
          · rw [List.getD_eq_getElem _ _ hj]
            exact hB v _ (List.getElem_mem hj)
          · rw [List.getD_eq_default _ _ (not_lt.mp hj), abs_zero]; exact hB0
        refine (abs_add_le _ _).trans ?_
        push_cast
        linarith
    have hall : ∀ l : List (List V), |(l.map fun vs => (vs.map fun v => (vec v).getD j 0).sum).sum|
        ≤ ((l.map List.length).sum : ℕ) * B := by
      intro l
      induction l with
      | nil => simp
      | cons vs l ih =>
        rw [List.map_cons, List.sum_cons, List.map_cons, List.sum_cons]
        refine (abs_add_le _ _).trans ?_
        have := hin vs
        push_cast
        push_cast at ih
        linarith
    have h1 := hall (valuesOf k E)
    have h2 : (((valuesOf k E).map List.length).sum : ℕ) * B ≤ linf * B := by
      refine mul_le_mul_of_nonneg_right ?_ hB0
      exact_mod_cast hE.perPartition linf hp.perPartition (Or.inl rfl) k
    exact_mod_cast h1.trans h2

theorem one_budget {r : Request} {bs : List (ℝ × ℝ)} (hb : ValidBudgets [r] bs) :
    ∃ e d, bs = [(e, d)] ∧ 0 < e ∧ 0 ≤ d ∧ (r.mechanism ≠ .laplace → 0 < d) := by
  cases hb with
  | cons h1 h2 =>
    cases h2
    exact ⟨_, _, rfl, h1⟩

theorem vectorMechanism_eq (sigma : ℝ → ℝ → ℝ → ℝ) {p : Params} {l0 linf n : ℕ} {M : ℚ} {kind : NormKind}
    (hp : VectorParams p l0 linf n M kind) (b : ℝ × ℝ) :
    vectorMechanism sigma p b = match p.noiseKind with
      | .laplace => .laplace (l1Sens l0 linf / (b.1 / n)) (l1Sens l0 linf)
      | .gaussian => .gaussian (sigma (b.1 / n) (b.2 / n) (l2Sens l0 linf)) (l2Sens l0 linf) := by
  simp only [vectorMechanism, hp.size, hp.partitions, hp.perPartition, Option.getD_some]
  rfl

/-- **C79** (one VECTOR_SUM).  With the norms Linf, L1 and L2, the released vectors are differentially private with the requested
budget, if `2 * max_norm` is at most `max_contributions_per_partition`, or the norm is Linf and all arrays have coordinates of at most
1, or the noise is Laplace and the spread of all coordinates is at most `max_contributions_per_partition * vector_size`. -/
theorem C79_vector_sum_is_private (sigma : ℝ → ℝ → ℝ → ℝ) (hg : GaussianContract sigma) (vec : V → List ℚ) {p : Params}
    {l0 linf n : ℕ} {M : ℚ} {kind : NormKind} (hp : VectorParams p l0 linf n M kind)
    (hc : VectorCovered vec p.noiseKind linf n M kind) : (vectorClass sigma vec).Private p := by
  have q0 : (0 : ℝ) < l0 := by exact_mod_cast hp.l0_pos
  have qi : (0 : ℝ) < linf := by exact_mod_cast hp.linf_pos
  have qn : (0 : ℝ) < n := by exact_mod_cast hp.size_pos
  have hM : (0 : ℝ) ≤ (M : ℝ) := by exact_mod_cast hp.norm_nonneg
  have hprob : ∀ bs, ValidBudgets ((vectorClass sigma vec).requests p) bs → ∀ c,
      IsProbabilityMeasure (noisy (vectorMechanism sigma p (bs.headD (0, 0))) c) := by
    intro bs hb c
    obtain ⟨e, d, rfl, he, hd, hd'⟩ := one_budget hb
    rw [vectorMechanism_eq sigma hp, List.headD_cons]
    cases hn : p.noiseKind with
    | laplace => exact noisy_laplace_prob (div_pos (mul_pos q0 qi) (div_pos he qn)) _ _
    | gaussian =>
      refine noisy_gaussian_prob (hg.pos _ _ _ (div_pos he qn) (div_pos (hd' ?_) qn) (mul_pos (Real.sqrt_pos.mpr q0) qi)) _ _
      simp [hn, NoiseKind.mechanism]
  refine ⟨fun a b => funext fun j => add_comm _ _, fun a b d => funext fun j => add_assoc _ _ _, ?_, ?_⟩
  · intro bs hb a
    obtain ⟨w, w1, -⟩ := vectorClass_compute sigma vec hp
    rw [w1]
    have := hprob bs hb
    exact Measure.isProbabilityMeasure_map (measurable_padded n).aemeasurable
  · intro bs hb K _ X Y E hE hXY
    obtain ⟨x, y, h⟩ := vector_change sigma vec hp X Y E hE hXY
    obtain ⟨e, d, rfl, he, hd, hd'⟩ := one_budget hb
    have key : ∀ {X Y : K → List (List V)} {x y : K → ℕ → ℝ}, VectorChange p sigma vec l0 linf n M kind X Y (E.map Prod.fst) x y →
        Close e d (fun k => (vectorClass sigma vec).compute p [(e, d)] ((vectorClass sigma vec).total p (X k)))
          (fun k => (vectorClass sigma vec).compute p [(e, d)] ((vectorClass sigma vec).total p (Y k))) := by
      intro X Y x y h
      -- every coordinate, or all of them
      have hdiff : (∀ k, ∀ j < n, |x k j - y k j| ≤ linf) ∨
          (p.noiseKind = .laplace ∧ ∀ k, ∑ j : Fin n, |x k j - y k j| ≤ linf * n) := by
        rcases hc with hc | ⟨hk, hv⟩ | ⟨hk, hv⟩
        · left
          intro k j hj
          have hc' : 2 * (M : ℝ) ≤ linf := by exact_mod_cast hc
          have h1 := coordinate_of_inBall (h.xball k) (x k j) (List.mem_ofFn.mpr ⟨⟨j, hj⟩, rfl⟩)
          have h2 := coordinate_of_inBall (h.yball k) (y k j) (List.mem_ofFn.mpr ⟨⟨j, hj⟩, rfl⟩)
          refine (abs_sub _ _).trans ?_
          linarith
        · left
          intro k j hj
          have := h.lipschitz hk 1 zero_le_one hv k j hj
          simpa using this
        · right
          exact ⟨hk, fun k => (sum_le_spread hM (h.xball k) (h.yball k)).trans hv⟩
      simp only [h.left, h.right, List.headD_cons, vectorMechanism_eq sigma hp]
      cases hn : p.noiseKind with
      | laplace =>
        intro ι _ f hf
        have hsum : ∀ k, ∑ j : Fin n, |x k j - y k j| ≤ linf * n := by
          rcases hdiff with hdiff | hdiff
          · intro k
            have := Finset.sum_le_card_nsmul Finset.univ (fun j : Fin n => |x k j - y k j|) (linf : ℝ) fun j _ => hdiff k j j.2
            simpa [mul_comm] using this
          · exact hdiff.2
        refine (vectors_laplace hp.l0_pos hp.linf_pos hp.size_pos he (mul_pos qi qn) _ h.few x y hsum h.off f hf).mono (le_of_eq ?_) hd
        field_simp
      | gaussian =>
        intro ι _ f hf
        rcases hdiff with hdiff | hdiff
        · exact vectors_gaussian hg hp.l0_pos hp.linf_pos hp.size_pos he (hd' (by simp [hn, NoiseKind.mechanism])) _ h.few x y
            hdiff h.off f hf
        · rw [hn] at hdiff
          exact absurd hdiff.1 (by decide)
    simp only [List.map_cons, List.map_nil, List.sum_cons, List.sum_nil, add_zero]
    exact ⟨key h, key h.swap⟩

/-- **C79** (what VECTOR_SUM with Laplace noise guarantees for any norm bound): the privacy loss is at most the requested epsilon
times `spread / (max_contributions_per_partition * vector_size)`.  With the norm Linf and arrays with coordinates of at
most `B`, it is at most `B` times the requested epsilon. -/
theorem C79_actual_loss (sigma : ℝ → ℝ → ℝ → ℝ) (vec : V → List ℚ) {p : Params} {l0 linf n : ℕ} {M : ℚ} {kind : NormKind}
    (hp : VectorParams p l0 linf n M kind) (hn : p.noiseKind = .laplace) {e d : ℝ} (he : 0 < e) (X Y : K → List (List V))
    (E : List (K × List V)) (hE : UserEntries p true E) (hXY : ∀ k, (X k).Perm (valuesOf k E ++ Y k)) (F : ℝ) (hF : 0 < F)
    (hcase : F = vectorSpread n M kind / (linf * n) ∨ kind = .linf ∧ ∃ B : ℚ, F = B ∧ ∀ v, ∀ x ∈ vec v, |x| ≤ B) :
    Close (F * e) 0 (fun k => (vectorClass sigma vec).compute p [(e, d)] ((vectorClass sigma vec).total p (X k)))
        (fun k => (vectorClass sigma vec).compute p [(e, d)] ((vectorClass sigma vec).total p (Y k))) ∧
      Close (F * e) 0 (fun k => (vectorClass sigma vec).compute p [(e, d)] ((vectorClass sigma vec).total p (Y k)))
        (fun k => (vectorClass sigma vec).compute p [(e, d)] ((vectorClass sigma vec).total p (X k))) := by
  have qi : (0 : ℝ) < linf := by exact_mod_cast hp.linf_pos
  have qn : (0 : ℝ) < n := by exact_mod_cast hp.size_pos
  have hM : (0 : ℝ) ≤ (M : ℝ) := by exact_mod_cast hp.norm_nonneg
  obtain ⟨x, y, h⟩ := vector_change sigma vec hp X Y E hE hXY
  have key : ∀ {X Y : K → List (List V)} {x y : K → ℕ → ℝ}, VectorChange p sigma vec l0 linf n M kind X Y (E.map Prod.fst) x y →
      Close (F * e) 0 (fun k => (vectorClass sigma vec).compute p [(e, d)] ((vectorClass sigma vec).total p (X k)))
        (fun k => (vectorClass sigma vec).compute p [(e, d)] ((vectorClass sigma vec).total p (Y k))) := by
    intro X Y x y h
    have hsum : ∀ k, ∑ j : Fin n, |x k j - y k j| ≤ linf * n * F := by
      intro k
      rcases hcase with hc | ⟨hk, B, hB, hv⟩
      · refine (sum_le_spread hM (h.xball k) (h.yball k)).trans (le_of_eq ?_)
        rw [hc]
        field_simp
      · have hB0 : 0 ≤ B := by
          rw [hB] at hF
          exact_mod_cast hF.le
        have := Finset.sum_le_card_nsmul Finset.univ (fun j : Fin n => |x k j - y k j|) (linf * B : ℝ)
          fun j _ => h.lipschitz hk B hB0 hv k j j.2
        rw [hB]
        refine this.trans (le_of_eq ?_)
        simp
        ring
    simp only [h.left, h.right, List.headD_cons, vectorMechanism_eq sigma hp, hn]
    intro ι _ f hf
    refine (vectors_laplace hp.l0_pos hp.linf_pos hp.size_pos he (mul_pos (mul_pos qi qn) hF) _ h.few x y hsum h.off f hf).mono
      (le_of_eq ?_) le_rfl
    field_simp
  exact ⟨key h, key h.swap⟩

end PDP.EndToEnd
