import Verif.EndToEnd.Accuracy
import Verif.EndToEnd.Mask

/-!
# The selection of partitions does not bias released numbers (C92)

C91 is on the numbers of a partition, released or not.  A user sees only the numbers of the partitions which are released.  If the
decision depended on the noise, then the numbers that are seen would be wrong on average, as with a threshold on the released
number.
-/

set_option linter.unusedSectionVars false

namespace PDP.EndToEnd

open PDP PDP.Engine MeasureTheory
open PDP.Engine.AddNoise (specOf)
open PDP.Budget (State Op MechType)

variable {R P K : Type} [DecidableEq P] [DecidableEq K]

/-! ### Distributions -/

theorem gate_prob {lib : Library} (hl : lib.Contract) (g : Gate) : IsProbabilityMeasure (g.law lib) := by
  cases g with
  | always => unfold Gate.law; infer_instance
  | select st e d l0 pre n =>
    have := coin_prob (hl.selection.range st e d l0 pre n).1 (hl.selection.range st e d l0 pre n).2
    exact Measure.isProbabilityMeasure_map (measurable_of_countable _).aemeasurable
  | threshold st e d l0 pre n => exact hl.thresholding.prob st e d l0 pre n

theorem decision_prob {lib : Library} (hl : lib.Contract) (l : List (Candidate K)) (k : K) :
    IsProbabilityMeasure (decisionLaw lib l k) := by
  unfold decisionLaw
  split
  · exact gate_prob hl _
  · infer_instance

theorem number_prob {l : List (Candidate K)} (h : ∀ c ∈ l, ∀ n ∈ c.numbers, IsProbabilityMeasure n.law) (k : K) (s : ℕ × ℕ) :
    IsProbabilityMeasure (numberLaw l k s) := by
  unfold numberLaw
  split
  · rename_i c hc
    split
    · rename_i n hn
      exact h c (List.mem_of_find?_eq_some hc) n (List.mem_of_find?_eq_some hn)
    · infer_instance
  · infer_instance

theorem accurate_prob {sigma : ℝ → ℝ → ℝ → ℝ} {kind : NoiseKind} {ε δ : ℕ → ℝ} {d : Documented} {law : Measure ℝ}
    (h : d.Accurate sigma kind ε δ law) : IsProbabilityMeasure law := by
  cases kind with
  | laplace => exact LaplaceAround.prob h
  | gaussian => exact GaussianAround.prob h

theorem accurate_mean {sigma : ℝ → ℝ → ℝ → ℝ} {kind : NoiseKind} {ε δ : ℕ → ℝ} {d : Documented} {law : Measure ℝ}
    (h : d.Accurate sigma kind ε δ law) : ∫ v, v ∂law = d.value := by
  cases kind with
  | laplace => exact LaplaceAround.mean h
  | gaussian => exact GaussianAround.mean h

/-- Decisions and numbers are independent, and the numbers of a partition which is released are shown as they are. -/
theorem observed_factor {lib : Library} {U : Finset (ℕ × K)} {S : Finset (ℕ × ℕ)} {L : List (List (Candidate K))}
    (hd : ∀ j k, IsProbabilityMeasure (decisionLaw lib (L.getD j []) k))
    (hn : ∀ j k s, IsProbabilityMeasure (numberLaw (L.getD j []) k s)) (T : Finset (U × S)) {B : Set (U → Bool × ℝ)}
    (hB : MeasurableSet B) {A : U × S → Set ℝ} (hA : ∀ i, MeasurableSet (A i)) (hT : ∀ y ∈ B, ∀ i ∈ T, (y i.1).1 = true) :
    observedLaw lib U S L {o | o.1 ∈ B ∧ ∀ i ∈ T, o.2 i ∈ A i}
      = observedLaw lib U S L {o | o.1 ∈ B} * ∏ i ∈ T, numberLaw (L.getD i.1.1.1 []) i.1.1.2 i.2.1 (A i) := by
  classical
  have h1 : ∀ u : U, IsProbabilityMeasure (decisionLaw lib (L.getD u.1.1 []) u.1.2) := fun u => hd _ _
  have h2 : ∀ i : U × S, IsProbabilityMeasure (numberLaw (L.getD i.1.1.1 []) i.1.1.2 i.2.1) := fun i => hn _ _ _
  have e1 : {o : (U → Bool × ℝ) × (U × S → ℝ) | o.1 ∈ B ∧ ∀ i ∈ T, o.2 i ∈ A i} = B ×ˢ (T : Set (U × S)).pi A := by
    ext o; simp [Set.mem_pi]
  have e2 : {o : (U → Bool × ℝ) × (U × S → ℝ) | o.1 ∈ B} = B ×ˢ Set.univ := by ext o; simp
  have m1 : MeasurableSet (B ×ˢ (T : Set (U × S)).pi A) := hB.prod (MeasurableSet.pi T.countable_toSet fun i _ => hA i)
  rw [e1, e2]
  unfold observedLaw
  rw [Measure.map_apply measurable_hide m1, Measure.map_apply measurable_hide (hB.prod MeasurableSet.univ)]
  have p1 : (hide : (U → Bool × ℝ) × (U × S → ℝ) → _) ⁻¹' (B ×ˢ (T : Set (U × S)).pi A)
      = B ×ˢ Set.univ.pi fun i => if i ∈ T then A i else Set.univ := by
    ext x
    simp only [hide, Set.mem_preimage, Set.mem_prod, Set.mem_pi, Set.mem_univ, true_imp_iff, Finset.mem_coe]
    refine and_congr_right fun hx => forall_congr' fun i => ?_
    by_cases hi : i ∈ T
    · simp [hi, hT _ hx i hi]
    · simp [hi]
  have p2 : (hide : (U → Bool × ℝ) × (U × S → ℝ) → _) ⁻¹' (B ×ˢ Set.univ) = B ×ˢ Set.univ := by
    ext x; simp [hide]
  rw [p1, p2, Measure.prod_prod, Measure.prod_prod, measure_univ, mul_one, Measure.pi_pi]
  congr 1
  rw [← Finset.prod_subset (Finset.subset_univ T) (fun i _ hi => by rw [if_neg hi, measure_univ])]
  exact Finset.prod_congr rfl fun i hi => by rw [if_pos hi]

/-! ### Labels -/

theorem documented_labels (p : Params) (rows : List (P × K × ℚ)) (k : K) (part : Part) (h : part.specs.Nodup) :
    (∀ d ∈ documented p rows k part, d.spec ∈ part.specs) ∧ ((documented p rows k part).map fun d => (d.spec, d.comp)).Nodup := by
  cases part with
  | sum i =>
    simp only [documented]
    split <;> simp [Part.specs]
  | mean c j ns =>
    simp only [Part.specs, List.nodup_cons, List.mem_singleton] at h
    simp [documented, Part.specs, h.1]
  | _ => simp [documented, Part.specs]

theorem documented_nodup (p : Params) (rows : List (P × K × ℚ)) (k : K) {parts : List Part} (h : (parts.flatMap Part.specs).Nodup) :
    ((parts.flatMap (documented p rows k)).map fun d => (d.spec, d.comp)).Nodup := by
  induction parts with
  | nil => simp
  | cons part parts ih =>
    rw [List.flatMap_cons, List.nodup_append] at h
    obtain ⟨h1, h2, h3⟩ := h
    rw [List.flatMap_cons, List.map_append, List.nodup_append]
    refine ⟨(documented_labels p rows k part h1).2, ih h2, ?_⟩
    intro a ha b hb hab
    obtain ⟨d, hd, rfl⟩ := List.mem_map.mp ha
    obtain ⟨d', hd', rfl⟩ := List.mem_map.mp hb
    obtain ⟨q, hq, hd'⟩ := List.mem_flatMap.mp hd'
    have hqn : q.specs.Nodup := (List.nodup_flatMap.mp h2).1 q hq
    refine h3 d.spec ((documented_labels p rows k part h1).1 d hd) d'.spec
      (List.mem_flatMap.mpr ⟨q, hq, (documented_labels p rows k q hqn).1 d' hd'⟩) (congrArg Prod.fst hab)

theorem number_of {l : List (Candidate K)} {c : Candidate K} {D : List Documented} {sigma : ℝ → ℝ → ℝ → ℝ} {kind : NoiseKind}
    {ε δ : ℕ → ℝ} (hL : (l.map Candidate.key).Nodup) (hc : c ∈ l) (hn : c.numbers = D.map (Documented.noisy sigma kind ε δ c.key))
    (hD : (D.map fun d => (d.spec, d.comp)).Nodup) {d : Documented} (hd : d ∈ D) :
    numberLaw l c.key (d.spec, d.comp) = (d.noisy sigma kind ε δ c.key).law := by
  have h1 : l.find? (fun c' => c'.key = c.key) = some c := by
    rcases hf : l.find? (fun c' => c'.key = c.key) with _ | c'
    · have := List.find?_eq_none.mp hf c hc
      simp at this
    · have m1 := List.mem_of_find?_eq_some hf
      have m2 := List.find?_some hf
      rw [hf, List.inj_on_of_nodup_map hL m1 hc (by simpa using m2)]
  have h2 : D.find? (fun d' => (d'.spec, d'.comp) = (d.spec, d.comp)) = some d := by
    rcases hf : D.find? (fun d' => (d'.spec, d'.comp) = (d.spec, d.comp)) with _ | d'
    · have := List.find?_eq_none.mp hf d hd
      simp at this
    · have m1 := List.mem_of_find?_eq_some hf
      have m2 := List.find?_some hf
      rw [hf, List.inj_on_of_nodup_map hD m1 hd (by simpa using m2)]
  unfold numberLaw
  rw [h1]
  dsimp only
  rw [hn, List.find?_map]
  have h3 : ((fun n : Noisy K => decide ((n.spec, n.comp) = (d.spec, d.comp))) ∘ Documented.noisy sigma kind ε δ c.key)
      = fun d' => decide ((d'.spec, d'.comp) = (d.spec, d.comp)) := rfl
  rw [h3, h2]
  rfl

/-! ### Pipelines -/

/-- **C92.**  A pipeline of supported calls, on data within the bounds.  Every documented number `d` of every candidate partition
`k` of the call at position `j` has an accurate distribution `law (j, k) (d.spec, d.comp)`, and whatever is known of which
partitions are released and of their thresholded counts (`B`), the numbers seen of released partitions have these distributions and
are independent. -/
theorem C92_release_does_not_bias_numbers (fmt : ℚ → String) {lib : Library} (hl : lib.Contract) (cs : List (Call R K))
    (hs : ∀ c ∈ cs, c.Supported) (hm : ∀ p pub key value, Call.aggregate p pub key value ∈ cs → p.metrics ≠ []) {e d : ℚ}
    {num ws s0} (h0 : Budget.init e d num ws = .ok s0) (hd : (∃ c ∈ cs, c.NeedsDelta) → 0 < d) (ha : AnnouncedCalls num ws cs)
    (env : ℕ → Env K) (hB : ∀ j, (env j).backend.Lawful)
    (hcomb : ∀ j {A : Type} (merge : A → A → A), LawfulCombine merge ((env j).combine merge)) (pid : R → P) (data : List R)
    (hw : ∀ c ∈ cs, c.Within pid data) :
    ∃ bs ops L, planCalls fmt [] cs = .ok (bs, ops) ∧ bs.length = cs.length ∧
      evalCalls lib.sigma (specOf (Budget.step (Budget.run s0 ops).1 .compute).1) env pid data 0 cs bs = .ok L ∧
      ∃ law : ℕ × K → ℕ × ℕ → Measure ℝ,
        (∀ (j : ℕ) (x : Call R K × Built), (cs.zip bs)[j]? = some x → ∀ k ∈ x.1.candidates data, ∀ n ∈ x.1.documented x.2 pid data k,
          n.Accurate lib.sigma x.1.kind (fun i => (shareEps e cs x i : ℝ)) (fun i => (shareDelta d cs bs x i : ℝ))
            (law (j, k) (n.spec, n.comp))) ∧
        ∀ (U : Finset (ℕ × K)) (S : Finset (ℕ × ℕ)) (T : Finset (U × S)) (B : Set (U → Bool × ℝ)) (A : U × S → Set ℝ),
          MeasurableSet B → (∀ i, MeasurableSet (A i)) → (∀ y ∈ B, ∀ i ∈ T, (y i.1).1 = true) →
          observedLaw lib U S L {o | o.1 ∈ B ∧ ∀ i ∈ T, o.2 i ∈ A i}
            = observedLaw lib U S L {o | o.1 ∈ B} * ∏ i ∈ T, law i.1.1 i.2.1 (A i) := by
  obtain ⟨bs, ops, L, hp, hlen, -, hL, hacc⟩ := C91_results_are_accurate fmt lib.sigma hl.gaussian.pos cs hs hm h0 hd ha env hB hcomb
    pid data hw
  obtain ⟨bs', ops', hp', -, -, hbo⟩ := planned_budgets fmt cs hs hm h0 hd ha
  obtain ⟨rfl, rfl⟩ : bs = bs' ∧ ops = ops' := by rw [hp] at hp'; simpa using hp'
  obtain ⟨L', hL', hrel⟩ := calls_release (sigma := lib.sigma) (ε := fun x i => (shareEps e cs x i : ℝ))
    (δ := fun x i => (shareDelta d cs bs x i : ℝ)) env hB hcomb pid data hs hw 0 hp hbo
  obtain rfl : L = L' := by rw [hL] at hL'; simpa using hL'
  refine ⟨bs, ops, L, hp, hlen, hL, fun jk s => numberLaw (L.getD jk.1 []) jk.2 s, ?_, ?_⟩
  · intro j x hx k hk n hn
    obtain ⟨hj, hx⟩ := List.getElem?_eq_some_iff.mp hx
    rw [List.forall₂_iff_get] at hacc hrel
    have hj' : j < L.length := hacc.1 ▸ hj
    have ha' := hacc.2 j hj hj'
    have hr' := hrel.2 j hj hj'
    simp only [List.get_eq_getElem, hx] at ha' hr'
    have hget : L.getD j [] = L[j] := by simp [hj']
    obtain ⟨c, hc, rfl⟩ := List.mem_map.mp ((ha'.1 k).mpr hk)
    have hac := ha'.2 c hc
    have hnum := hr'.numbers c hc
    have hxm : x ∈ cs.zip bs := hx ▸ List.getElem_mem _
    have hnd := (hbo x hxm).nodup
    clear hbo hL' hL
    rcases x with ⟨call, b⟩
    cases call with
    | select p key => simp [Call.documented] at hn
    | aggregate p pub key value =>
      simp only [Call.documented, Call.numbers, Call.kind] at hn hac hnum hnd ⊢
      rw [hget, number_of hr'.nodup hc hnum (documented_nodup _ _ _ hnd) hn]
      rw [hnum, List.map_map, List.forall₂_map_right_iff, List.forall₂_same] at hac
      exact hac n hn
  · intro U S T B A hBm hAm hT
    refine observed_factor (fun j k => decision_prob hl _ _) (fun j k s => number_prob ?_ _ _) T hBm hAm hT
    intro c hc n hn
    have hj : j < L.length := by
      by_contra hj
      simp [List.getElem?_eq_none (not_lt.mp hj)] at hc
    have hget : L.getD j [] = L[j] := by simp [hj]
    rw [hget] at hc
    rw [List.forall₂_iff_get] at hacc
    have hac := (hacc.2 j (hacc.1 ▸ hj) hj).2 c (by simpa using hc)
    obtain ⟨i, hi, hin⟩ := List.getElem_of_mem (List.mem_map_of_mem (f := Noisy.law) hn)
    rw [List.forall₂_iff_get] at hac
    have := hac.2 i (hac.1 ▸ hi) hi
    simp only [List.get_eq_getElem, hin] at this
    exact accurate_prob this

/-- **C92** (what a user sees).  The average of a documented number over the runs in which its partition is released is the exact
number.  In these runs the error is `t` or more with probability `exp (-t * ε / (Δ * uses))` with Laplace noise, and with
probability at most `2 exp (-t² / (2 σ²))` with Gaussian noise. -/
theorem C92_released_numbers_are_accurate (fmt : ℚ → String) {lib : Library} (hl : lib.Contract) (cs : List (Call R K))
    (hs : ∀ c ∈ cs, c.Supported) (hm : ∀ p pub key value, Call.aggregate p pub key value ∈ cs → p.metrics ≠ []) {e d : ℚ}
    {num ws s0} (h0 : Budget.init e d num ws = .ok s0) (hd : (∃ c ∈ cs, c.NeedsDelta) → 0 < d) (ha : AnnouncedCalls num ws cs)
    (env : ℕ → Env K) (hB : ∀ j, (env j).backend.Lawful)
    (hcomb : ∀ j {A : Type} (merge : A → A → A), LawfulCombine merge ((env j).combine merge)) (pid : R → P) (data : List R)
    (hw : ∀ c ∈ cs, c.Within pid data) :
    ∃ bs ops L, planCalls fmt [] cs = .ok (bs, ops) ∧ bs.length = cs.length ∧
      evalCalls lib.sigma (specOf (Budget.step (Budget.run s0 ops).1 .compute).1) env pid data 0 cs bs = .ok L ∧
      ∀ (U : Finset (ℕ × K)) (S : Finset (ℕ × ℕ)) (u : U) (s : S) (x : Call R K × Built), (cs.zip bs)[u.1.1]? = some x → u.1.2 ∈ x.1.candidates data →
        ∀ n ∈ x.1.documented x.2 pid data u.1.2, (n.spec, n.comp) = s.1 →
        ∫ o in {o | (o.1 u).1 = true}, o.2 (u, s) ∂observedLaw lib U S L
          = (observedLaw lib U S L {o | (o.1 u).1 = true}).toReal * n.value ∧
        (x.1.kind = .laplace → ∀ t, 0 ≤ t → observedLaw lib U S L {o | (o.1 u).1 = true ∧ t ≤ |o.2 (u, s) - n.value|}
          = observedLaw lib U S L {o | (o.1 u).1 = true}
            * ENNReal.ofReal (Real.exp (-t * (shareEps e cs x n.spec : ℝ) / (n.l1 * n.uses)))) ∧
        (x.1.kind = .gaussian → ∀ t, 0 ≤ t → observedLaw lib U S L {o | (o.1 u).1 = true ∧ t ≤ |o.2 (u, s) - n.value|}
          ≤ observedLaw lib U S L {o | (o.1 u).1 = true} * ENNReal.ofReal (2 * Real.exp (-t ^ 2 / (2 * lib.sigma
            ((shareEps e cs x n.spec : ℝ) / n.uses) ((shareDelta d cs bs x n.spec : ℝ) / n.uses) n.l2 ^ 2)))) := by
  obtain ⟨bs, ops, L, hp, hlen, hL, law, hacc, hfac⟩ := C92_release_does_not_bias_numbers fmt hl cs hs hm h0 hd ha env hB hcomb pid
    data hw
  refine ⟨bs, ops, L, hp, hlen, hL, fun U S u s x hx hk n hn hsn => ?_⟩
  have hac := hacc _ x hx _ hk n hn
  rw [hsn] at hac
  have hBm : MeasurableSet {y : U → Bool × ℝ | (y u).1 = true} :=
    (measurable_fst.comp (measurable_pi_apply u)) (measurableSet_singleton true)
  have key : ∀ A : Set ℝ, MeasurableSet A → observedLaw lib U S L {o | (o.1 u).1 = true ∧ o.2 (u, s) ∈ A}
      = observedLaw lib U S L {o | (o.1 u).1 = true} * law u.1 s.1 A := by
    intro A hA
    have h := hfac U S {(u, s)} {y | (y u).1 = true} (fun _ => A) hBm (fun _ => hA) (by simp)
    simpa using h
  have herr : ∀ t : ℝ, MeasurableSet {v : ℝ | t ≤ |v - n.value|} := fun t => measurableSet_le measurable_const (by fun_prop)
  refine ⟨?_, fun hkind t ht => ?_, fun hkind t ht => ?_⟩
  · have hEm : MeasurableSet {o : (U → Bool × ℝ) × (U × S → ℝ) | (o.1 u).1 = true} := measurable_fst hBm
    have hfm : Measurable fun o : (U → Bool × ℝ) × (U × S → ℝ) => o.2 (u, s) := by fun_prop
    have hmap : ((observedLaw lib U S L).restrict {o | (o.1 u).1 = true}).map (fun o => o.2 (u, s))
        = observedLaw lib U S L {o | (o.1 u).1 = true} • law u.1 s.1 := by
      ext A hA
      rw [Measure.map_apply hfm hA, Measure.restrict_apply (hfm hA), Measure.smul_apply, smul_eq_mul, ← key A hA]
      congr 1
      ext o
      simp [and_comm]
    have h1 := integral_map (μ := (observedLaw lib U S L).restrict {o | (o.1 u).1 = true}) hfm.aemeasurable
      (f := fun v : ℝ => v) (by fun_prop)
    rw [← h1, hmap, integral_smul_measure, accurate_mean hac]
    rfl
  · have h := key _ (herr t)
    simp only [Set.mem_ofPred_eq] at h
    rw [h]
    unfold Documented.Accurate at hac
    rw [hkind] at hac
    have h' := LaplaceAround.error hac t ht
    rw [h']
    congr 3
    rw [div_div_eq_mul_div]
  · have h := key _ (herr t)
    simp only [Set.mem_ofPred_eq] at h
    rw [h]
    unfold Documented.Accurate at hac
    rw [hkind] at hac
    gcongr
    exact GaussianAround.error hac t ht

end PDP.EndToEnd
