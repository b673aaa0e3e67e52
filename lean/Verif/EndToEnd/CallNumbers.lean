import Verif.EndToEnd.Mask

/-! # The noisy numbers of one `aggregate` call with any noise and any partitions -/

set_option linter.unusedSectionVars false

namespace PDP.EndToEnd

open PDP PDP.Engine MeasureTheory
open PDP.Engine.Mechanism (Additive)
open PDP.Engine.AddNoise (specOf)
open PDP.Budget (State Op MechType)
open PDP.Approx (Indist)

variable {R P K : Type} [DecidableEq P] [DecidableEq K]

/-! ### Combiners -/

/-- Supported combiners, with post-aggregation thresholding and percentiles. -/
def PartOkAny (p : Params) (part : Part) : Prop :=
  PartOk p part ∨ (∃ i, part = .thresholding i) ∨ ∃ i ps, part = .quantile i ps

/-- The budgets of the thresholding combiners. -/
def thSpecs (parts : List Part) : List ℕ :=
  parts.flatMap fun | .thresholding i => [i] | _ => []

/-- The budgets of the quantile combiners. -/
def qSpecs (parts : List Part) : List ℕ :=
  parts.flatMap fun | .quantile i _ => [i] | _ => []

theorem parts_ok_any {fmt : ℚ → String} {p : Params} {pub : Option (List K)} {rs rs' : List Request} {parts : List Part}
    (hs : SupportedAny p pub) (h : createCompound fmt p rs = (.ok parts, rs')) :
    (∀ part ∈ parts, PartOkAny p part) ∧ (p.postThresholding = true → thSpecs parts ≠ []) := by
  have hv : vectorPart p (privacyIdPart p (scalarParts p rs).2).2 = ([], (privacyIdPart p (scalarParts p rs).2).2) := by
    unfold vectorPart
    rw [if_neg hs.metrics]
  unfold createCompound at h
  simp only [hv, List.append_nil] at h
  split at h
  · simp only [Prod.mk.injEq, Except.ok.injEq] at h
    obtain ⟨rfl, -⟩ := h
    constructor
    · intro part hp
      rcases List.mem_append.mp hp with hp | hp
      swap
      · unfold quantilePart at hp
        dsimp only at hp
        split at hp
        · simp only [requestBudget, List.mem_singleton] at hp
          exact .inr (.inr ⟨_, _, hp⟩)
        · simp at hp
      rcases List.mem_append.mp hp with hp | hp
      · left
        unfold scalarParts at hp
        by_cases h1 : Metric.variance ∈ p.metrics
        · rw [if_pos h1] at hp
          simp only [requestBudget, List.mem_singleton] at hp
          subst hp; exact hs.variance h1
        · rw [if_neg h1] at hp
          by_cases h2 : Metric.mean ∈ p.metrics
          · rw [if_pos h2] at hp
            simp only [requestBudget, List.mem_singleton] at hp
            subst hp; exact hs.mean h2 h1
          · rw [if_neg h2] at hp
            by_cases h3 : Metric.count ∈ p.metrics <;> by_cases h4 : Metric.sum ∈ p.metrics <;>
              simp [h3, h4, requestBudget] at hp
            · rcases hp with rfl | rfl
              · trivial
              · exact hs.sum h4 h2 h1
            · subst hp; trivial
            · subst hp; exact hs.sum h4 h2 h1
      · unfold privacyIdPart at hp
        by_cases h1 : Metric.privacyIdCount ∈ p.metrics
        · rw [if_pos h1] at hp
          by_cases ht : p.postThresholding = true
          · rw [if_pos ht] at hp
            simp only [requestBudget, List.mem_singleton] at hp
            exact .inr (.inl ⟨_, hp⟩)
          · rw [if_neg ht] at hp
            simp only [requestBudget, List.mem_singleton] at hp
            subst hp; exact .inl (hs.ids h1)
        · rw [if_neg h1] at hp; simp at hp
    · intro ht hnil
      have h1 := (hs.thresholding ht).2
      unfold thSpecs at hnil
      rw [List.flatMap_append, List.append_eq_nil_iff, List.flatMap_append, List.append_eq_nil_iff] at hnil
      have := hnil.1.2
      unfold privacyIdPart at this
      rw [if_pos h1, if_pos ht] at this
      simp [requestBudget] at this
  · simp at h

theorem numbers_specs_any (sigma : ℝ → ℝ → ℝ → ℝ) (p : Params) (part : Part) (h : PartOkAny p part) :
    (∀ n ∈ (view sigma p part).numbers, n.spec ∈ part.specs ∧ part.mechanism p.noiseKind = p.noiseKind.mechanism) ∧
      (part.specs.Nodup → ((view sigma p part).numbers.map fun n => (n.spec, n.comp)).Nodup) ∧
      ∀ ε : ℕ → ℝ, ((view sigma p part).numbers.map fun n => share part * ε n.spec).sum + ((thSpecs [part]).map ε).sum
        + ((qSpecs [part]).map ε).sum = (part.specs.map ε).sum := by
  rcases h with h | ⟨i, rfl⟩ | ⟨i, ps, rfl⟩
  · have hs := numbers_sum sigma p part h
    have hp := numbers_specs sigma p part h
    refine ⟨?_, ?_, ?_⟩
    · intro n hn
      have : (n.spec, n.comp) ∈ (view sigma p part).numbers.map fun n => (n.spec, n.comp) :=
        List.mem_map_of_mem hn
      rw [hp] at this
      cases part with
      | variance s ns => simp at this; simp [Part.specs, Part.mechanism]; omega
      | thresholding s => exact h.elim
      | _ => simp at this; exact ⟨this.1, rfl⟩
    · intro n1
      rw [hp]
      cases part with
      | variance s ns => simp
      | _ => exact n1.map fun a b hab => by simpa using hab
    · intro ε
      rw [hs ε]
      have h1 : thSpecs [part] = [] := by
        cases part with
        | thresholding s => exact h.elim
        | _ => rfl
      have h2 : qSpecs [part] = [] := by
        cases part with
        | quantile s ps => exact h.elim
        | _ => rfl
      rw [h1, h2]; simp
  · refine ⟨?_, ?_, ?_⟩
    · intro n hn; exact (List.not_mem_nil hn).elim
    · intro _; simp [view]
    · intro ε; simp [view, thSpecs, qSpecs, Part.specs]
  · refine ⟨?_, ?_, ?_⟩
    · intro n hn; exact (List.not_mem_nil hn).elim
    · intro _; simp [view]
    · intro ε; simp [view, thSpecs, qSpecs, Part.specs]

theorem flat_any (sigma : ℝ → ℝ → ℝ → ℝ) (p : Params) (parts : List Part) (h : ∀ part ∈ parts, PartOkAny p part)
    (hn : (parts.flatMap Part.specs).Nodup) :
    ((flat sigma p parts).map fun x => (x.2.spec, x.2.comp)).Nodup ∧
      (∀ x ∈ flat sigma p parts, x.2.spec ∈ parts.flatMap Part.specs) ∧
      ∀ ε : ℕ → ℝ, ((flat sigma p parts).map fun x => x.1 * ε x.2.spec).sum + ((thSpecs parts).map ε).sum
        + ((qSpecs parts).map ε).sum = ((parts.flatMap Part.specs).map ε).sum := by
  induction parts with
  | nil => simp [flat, thSpecs, qSpecs]
  | cons part parts ih =>
    rw [List.flatMap_cons, List.nodup_append] at hn
    obtain ⟨n1, n2, n3⟩ := hn
    obtain ⟨i1, i2, i3⟩ := ih (fun x hx => h x (by simp [hx])) n2
    obtain ⟨j1, j2, j3⟩ := numbers_specs_any sigma p part (h part (by simp))
    refine ⟨?_, ?_, ?_⟩
    · simp only [flat, List.map_append, List.map_map]
      rw [List.nodup_append]
      refine ⟨j2 n1, i1, ?_⟩
      intro a ha b hb hab
      obtain ⟨n, hn, rfl⟩ := List.mem_map.mp ha
      obtain ⟨x, hx, rfl⟩ := List.mem_map.mp hb
      exact n3 _ (j1 n hn).1 _ (i2 x hx) (congrArg Prod.fst hab)
    · intro x hx
      simp only [flat, List.mem_append, List.mem_map] at hx
      rw [List.flatMap_cons, List.mem_append]
      rcases hx with ⟨n, hn, rfl⟩ | ⟨y, hy, rfl⟩
      · exact Or.inl (j1 n hn).1
      · exact Or.inr (i2 y hy)
    · intro ε
      have e1 : thSpecs (part :: parts) = thSpecs [part] ++ thSpecs parts := by
        simp [thSpecs]
      have e0 : qSpecs (part :: parts) = qSpecs [part] ++ qSpecs parts := by
        simp [qSpecs]
      rw [e1, e0, List.flatMap_cons, List.map_append, List.sum_append, List.map_append, List.sum_append, List.map_append, List.sum_append, ← i3 ε, ← j3 ε]
      simp only [flat, List.map_append, List.map_map, List.sum_append]
      have e2 : ((view sigma p part).numbers.map ((fun x : ℝ × Number (Combiner.AccTuple (combinersOf sigma p (part :: parts))) =>
          x.1 * ε x.2.spec) ∘ fun n => (share part, ⟨n.spec, n.comp, n.mech, fun a => n.read a.1⟩))).sum
          = ((view sigma p part).numbers.map fun n => share part * ε n.spec).sum := rfl
      have e3 : ((flat sigma p parts).map ((fun x : ℝ × Number (Combiner.AccTuple (combinersOf sigma p (part :: parts))) =>
          x.1 * ε x.2.spec) ∘ fun n => (n.1, ⟨n.2.spec, n.2.comp, n.2.mech, fun a => n.2.read a.2⟩))).sum
          = ((flat sigma p parts).map fun x => x.1 * ε x.2.spec).sum := rfl
      linarith [e2, e3]

/-! ### Noise on a family of numbers -/

theorem sum_injective {ι : Type} [Fintype ι] (f : ι → K) (hf : Function.Injective f) (g : K → ℝ) :
    ∃ ks : List K, ks.Nodup ∧ ∑ i, g (f i) = (ks.map g).sum := by
  refine ⟨(Finset.univ.toList).map f, (Finset.nodup_toList _).map hf, ?_⟩
  rw [List.map_map, ← Finset.sum_map_toList]; rfl

theorem cast_sum (l : List K) (g : K → ℚ) : (((l.map g).sum : ℚ) : ℝ) = (l.map fun k => (g k : ℝ)).sum := by
  induction l with
  | nil => simp
  | cons a l ih => simp [ih]

/-- The budget share of delta that a number uses. -/
noncomputable def deltaShare (kind : NoiseKind) (d : ℝ) : ℝ := match kind with | .laplace => 0 | .gaussian => d

/-- A covered number with its noise is indistinguishable on neighbouring datasets. -/
theorem covered_close {sigma : ℝ → ℝ → ℝ → ℝ} (hσ : GaussianContract sigma) {kind : NoiseKind} {mech} {share : ℝ} {Δ : K → ℚ}
    (hc : NumberCovered sigma kind mech share Δ) (e d : ℝ) (he : 0 < share * e) (hd : kind = .gaussian → 0 < share * d) :
    ∃ m, mech ⟨toMechType kind.mechanism, none, some e, some d⟩ = .ok m ∧
      (∀ x, IsProbabilityMeasure (noisy m x)) ∧
      ∀ A B : K → ℚ, (∀ k, A k - B k = Δ k) →
        Close (share * e) (deltaShare kind (share * d)) (fun k => noisy m (A k)) (fun k => noisy m (B k)) ∧
        Close (share * e) (deltaShare kind (share * d)) (fun k => noisy m (B k)) (fun k => noisy m (A k)) := by
  obtain ⟨s, x, y, h1, h2, hx, hy, hcov, hl, hg, -⟩ := hc
  cases kind with
  | laplace =>
    refine ⟨_, hl rfl e d, fun z => noisy_laplace_prob (div_pos hx he) _ _, fun A B hAB => ?_⟩
    have hsum : ∀ {ι : Type} [Fintype ι] (f : ι → K), Function.Injective f →
        ∑ i, |((A (f i) : ℚ) : ℝ) - (B (f i) : ℚ)| ≤ x := by
      intro ι _ f hf
      obtain ⟨ks, hk, hsum⟩ := sum_injective f hf fun k => |((A k : ℚ) : ℝ) - (B k : ℚ)|
      rw [hsum]
      obtain ⟨x', hx', hle⟩ := hcov.l1
      rw [h1] at hx'; cases hx'
      refine le_trans (le_of_eq ?_) (hle ks hk)
      rw [cast_sum]
      congr 1
      apply List.map_congr_left
      intro k _
      rw [← hAB k]; push_cast; rfl
    constructor
    · intro ι _ f hf
      exact laplace_group he hx _ _ (hsum f hf) _
    · intro ι _ f hf
      refine laplace_group he hx _ _ ?_ _
      simp only [abs_sub_comm]
      have := hsum f hf
      simpa only [abs_sub_comm] using this
  | gaussian =>
    have hd := hd rfl
    refine ⟨_, hg rfl e d, fun z => noisy_gaussian_prob (hσ.pos _ _ _ he hd hy) _ _, fun A B hAB => ?_⟩
    have hsum : ∀ {ι : Type} [Fintype ι] (f : ι → K), Function.Injective f →
        Real.sqrt (∑ i, (((A (f i) : ℚ) : ℝ) - (B (f i) : ℚ)) ^ 2) ≤ y := by
      intro ι _ f hf
      obtain ⟨ks, hk, hsum⟩ := sum_injective f hf fun k => (((A k : ℚ) : ℝ) - (B k : ℚ)) ^ 2
      rw [hsum]
      obtain ⟨x', hx', hle⟩ := hcov.l2
      rw [h2] at hx'; cases hx'
      refine le_trans (le_of_eq ?_) (hle ks hk)
      rw [cast_sum]
      congr 2
      apply List.map_congr_left
      intro k _
      rw [← hAB k]; push_cast; rfl
    constructor
    · intro ι _ f hf
      exact hσ.dp _ _ _ he hd hy _ _ (hsum f hf)
    · intro ι _ f hf
      refine hσ.dp _ _ _ he hd hy _ _ ?_
      have := hsum f hf
      simp only [sub_sq_comm] at this ⊢
      exact this

/-! ### The numbers of a call -/

/-- The number with a label. -/
noncomputable def pick (sigma : ℝ → ℝ → ℝ → ℝ) (p : Params) (parts : List Part) (l : ℕ × ℕ) :
    Option (ℝ × Number (Combiner.AccTuple (combinersOf sigma p parts))) :=
  (flat sigma p parts).find? fun x => (x.2.spec, x.2.comp) = l

/-- Its distribution in partition `k`. -/
noncomputable def valOf (sigma : ℝ → ℝ → ℝ → ℝ) (s : Specs) (p : Params) (parts : List Part)
    (acc : List (K × (Combiner.compound (combinersOf sigma p parts)).Acc)) (l : ℕ × ℕ) (k : K) : Measure ℝ :=
  match pick sigma p parts l with
  | some x => noisy (getMech s x.2.mech x.2.spec)
      ((partitionTotal (fun c : (Combiner.compound (combinersOf sigma p parts)).Acc => x.2.read c.2) acc k : ℚ) : ℝ)
  | none => Measure.dirac 0

/-- The numbers of one partition. -/
noncomputable def numbersOf (sigma : ℝ → ℝ → ℝ → ℝ) (s : Specs) (p : Params) (parts : List Part)
    (e : K × (Combiner.compound (combinersOf sigma p parts)).Acc) : List (Noisy K) :=
  (flat sigma p parts).map fun x => ⟨e.1, x.2.spec, x.2.comp, x.2.read e.2.2, getMech s x.2.mech x.2.spec⟩

theorem numberLaw_eq (sigma : ℝ → ℝ → ℝ → ℝ) (s : Specs) (p : Params) (parts : List Part)
    {acc out : List (K × (Combiner.compound (combinersOf sigma p parts)).Acc)}
    (hC : IsCombine (Combiner.compound (combinersOf sigma p parts)).merge acc out)
    (G : K × (Combiner.compound (combinersOf sigma p parts)).Acc → Gate) (k : K) (l : ℕ × ℕ)
    (h : ((out.map fun e => (⟨e.1, G e, numbersOf sigma s p parts e⟩ : Candidate K)).find? fun c => c.key = k).isSome) :
    numberLaw (out.map fun e => (⟨e.1, G e, numbersOf sigma s p parts e⟩ : Candidate K)) k l
      = if l ∈ (flat sigma p parts).map (fun x => (x.2.spec, x.2.comp)) then valOf sigma s p parts acc l k
        else Measure.dirac 0 := by
  obtain ⟨c, hc⟩ := Option.isSome_iff_exists.mp h
  have hmem := List.mem_of_find?_eq_some hc
  have hkey : c.key = k := by simpa using List.find?_some hc
  obtain ⟨e, he, rfl⟩ := List.mem_map.mp hmem
  simp only at hkey
  unfold numberLaw
  rw [hc]
  dsimp only
  have hfind : (numbersOf sigma s p parts e).find? (fun n => (n.spec, n.comp) = l)
      = (pick sigma p parts l).map fun x => ⟨e.1, x.2.spec, x.2.comp, x.2.read e.2.2, getMech s x.2.mech x.2.spec⟩ := by
    unfold numbersOf pick
    rw [List.find?_map]; rfl
  rw [hfind]
  cases hp : pick sigma p parts l with
  | none =>
    have hl : l ∉ (flat sigma p parts).map fun x => (x.2.spec, x.2.comp) := by
      intro hl
      obtain ⟨x, hx, rfl⟩ := List.mem_map.mp hl
      have := List.find?_eq_none.mp hp x hx
      simp at this
    rw [if_neg hl]; rfl
  | some x =>
    have hx : x ∈ flat sigma p parts := List.mem_of_find?_eq_some hp
    have hl : (x.2.spec, x.2.comp) = l := by simpa using List.find?_some hp
    rw [if_pos (List.mem_map.mpr ⟨x, hx, hl⟩)]
    unfold valOf
    rw [hp]
    dsimp only [Option.map_some]
    rw [← hkey, ← read_out hC (fun c => x.2.read c.2) (flat_additive sigma p parts x hx) e he]
    rfl

end PDP.EndToEnd
