import Verif.EndToEnd.CallGates

/-! # One call on neighbouring datasets -/

set_option linter.unusedSectionVars false

namespace PDP.EndToEnd

open PDP PDP.Engine MeasureTheory
open PDP.Engine.Mechanism (Additive createThresholding computed)
open PDP.Engine.AddNoise (specOf)
open PDP.Budget (State Op MechType)
open PDP.Approx (Indist)

variable {R P K : Type} [DecidableEq P] [DecidableEq K]

/-- The budget of a mechanism as it is published. -/
structure SpecOk (s : Specs) (ε δ : ℕ → ℝ) (i : ℕ) (m : Engine.Mechanism) : Prop where
  eq : s i = ⟨toMechType m, none, some (ε i), some (δ i)⟩
  eps : 0 < ε i
  delta : 0 ≤ δ i
  pos : m ≠ .laplace → 0 < δ i

theorem share_pos (part : Part) : 0 < share part := by
  cases part <;> simp [share]

/-- The numbers of a call with their noise. -/
theorem number_facts {lib : Library} (hlib : lib.Contract) {s : Specs} {ε δ : ℕ → ℝ} {p : Params} (hp : p.BoundsValid)
    {parts : List Part} (hok : ∀ part ∈ parts, PartOkAny p part)
    (hsp : ∀ part ∈ parts, ∀ i ∈ part.specs, SpecOk s ε δ i (part.mechanism p.noiseKind))
    (B : Backend) (hB : B.Lawful) (hK : B.KeyLocal) (pub : Option (List K)) (col : List (P × K × ℚ)) (u : P)
    (hu : CallerKeepsBounds p u col)
    {a a' : List (K × (Combiner.compound (combinersOf lib.sigma p parts)).Acc)}
    (ha : accumulators B p (Combiner.compound (combinersOf lib.sigma p parts)).sampling
      (Combiner.compound (combinersOf lib.sigma p parts)).create pub col = .ok a)
    (ha' : accumulators B p (Combiner.compound (combinersOf lib.sigma p parts)).sampling
      (Combiner.compound (combinersOf lib.sigma p parts)).create pub (without u col) = .ok a')
    (x) (hx : x ∈ flat lib.sigma p parts) :
    (∃ m, x.2.mech (s x.2.spec) = .ok m) ∧ 0 ≤ x.1 ∧ x.1 ≤ 1 ∧ 0 ≤ δ x.2.spec ∧
      (∀ y, IsProbabilityMeasure (noisy (getMech s x.2.mech x.2.spec) y)) ∧
      Close (x.1 * ε x.2.spec) (deltaShare p.noiseKind (x.1 * δ x.2.spec))
        (fun k => noisy (getMech s x.2.mech x.2.spec)
          ((partitionTotal (fun c : (Combiner.compound (combinersOf lib.sigma p parts)).Acc => x.2.read c.2) a k : ℚ) : ℝ))
        (fun k => noisy (getMech s x.2.mech x.2.spec)
          ((partitionTotal (fun c : (Combiner.compound (combinersOf lib.sigma p parts)).Acc => x.2.read c.2) a' k : ℚ) : ℝ)) ∧
      Close (x.1 * ε x.2.spec) (deltaShare p.noiseKind (x.1 * δ x.2.spec))
        (fun k => noisy (getMech s x.2.mech x.2.spec)
          ((partitionTotal (fun c : (Combiner.compound (combinersOf lib.sigma p parts)).Acc => x.2.read c.2) a' k : ℚ) : ℝ))
        (fun k => noisy (getMech s x.2.mech x.2.spec)
          ((partitionTotal (fun c : (Combiner.compound (combinersOf lib.sigma p parts)).Acc => x.2.read c.2) a k : ℚ) : ℝ)) := by
  obtain ⟨i, part, v, hv, h, n, h1, h2, h3, h4, h5, h6, h7⟩ := flat_mem lib.sigma p parts x hx
  have hnum := (numbers_specs_any lib.sigma p part (hok part h1)).1
  rw [hv] at hnum
  obtain ⟨hs1, hs2⟩ := hnum n h2
  have hspec := hsp part h1 n.spec hs1
  rw [hs2] at hspec
  have hpart : PartOk p part := by
    rcases hok part h1 with h | ⟨j, rfl⟩ | ⟨j, ps, rfl⟩
    · exact h
    · simp only [view] at hv
      subst hv
      exact (List.not_mem_nil h2).elim
    · simp only [view] at hv
      subst hv
      exact (List.not_mem_nil h2).elim
  have hcov := number_covered_any lib.sigma B hB hK p hp (combinersOf lib.sigma p parts) i part hpart v hv h n h2 pub col u hu
    a a' ha ha'
  have hsh := share_pos part
  have hsh1 : share part ≤ 1 := by cases part <;> norm_num [share]
  obtain ⟨m, hm, hprob, hclose⟩ := covered_close hlib.gaussian hcov (ε n.spec) (δ n.spec) (mul_pos hsh hspec.eps)
    (fun hk => mul_pos hsh (hspec.pos (by rw [hk]; simp [NoiseKind.mechanism])))
  have hmech : x.2.mech (s x.2.spec) = .ok m := by rw [h6, h4, hspec.eq, hm]
  have hget : getMech s x.2.mech x.2.spec = m := by simp only [getMech, hmech]
  have hread : (fun c : (Combiner.compound (combinersOf lib.sigma p parts)).Acc => x.2.read c.2)
      = fun acc => n.read (Combiner.readAs v.comb i h acc) := funext h7
  refine ⟨⟨m, hmech⟩, by rw [h3]; exact hsh.le, by rw [h3]; exact hsh1, by rw [h4]; exact hspec.delta, ?_⟩
  rw [hget, hread, h3, h4]
  obtain ⟨c1, c2⟩ := hclose _ _ fun k => rfl
  exact ⟨hprob, c1, c2⟩

theorem pick_label {σ : ℝ → ℝ → ℝ → ℝ} {p : Params} {parts : List Part}
    (hn : ((flat σ p parts).map fun x => (x.2.spec, x.2.comp)).Nodup) (x) (hx : x ∈ flat σ p parts) :
    pick σ p parts (x.2.spec, x.2.comp) = some x := by
  unfold pick
  generalize flat σ p parts = l at hn hx
  induction l with
  | nil => simp at hx
  | cons y l ih =>
    rw [List.map_cons, List.nodup_cons] at hn
    rw [List.find?_cons]
    by_cases hy : (y.2.spec, y.2.comp) = (x.2.spec, x.2.comp)
    · simp only [hy, decide_true]
      rcases List.mem_cons.mp hx with rfl | hx
      · rfl
      · exact absurd (List.mem_map.mpr ⟨x, hx, hy.symm⟩) hn.1
    · simp only [hy, decide_false]
      rcases List.mem_cons.mp hx with rfl | hx
      · exact absurd rfl hy
      · exact ih hn.2 hx

/-- Decisions and numbers of an `aggregate` call together. -/
theorem aggregate_pair {lib : Library} (hlib : lib.Contract) {s : Specs} {ε δ : ℕ → ℝ} {p : Params} (hp : p.BoundsValid)
    {parts : List Part} (hok : ∀ part ∈ parts, PartOkAny p part) (hnd : (parts.flatMap Part.specs).Nodup)
    (hsp : ∀ part ∈ parts, ∀ i ∈ part.specs, SpecOk s ε δ i (part.mechanism p.noiseKind))
    (B : Backend) (hB : B.Lawful) (hK : B.KeyLocal) (pub : Option (List K)) (col : List (P × K × ℚ)) (u : P)
    (hu : CallerKeepsBounds p u col)
    {a a' out out' : List (K × (Combiner.compound (combinersOf lib.sigma p parts)).Acc)}
    (ha : accumulators B p (Combiner.compound (combinersOf lib.sigma p parts)).sampling
      (Combiner.compound (combinersOf lib.sigma p parts)).create pub col = .ok a)
    (ha' : accumulators B p (Combiner.compound (combinersOf lib.sigma p parts)).sampling
      (Combiner.compound (combinersOf lib.sigma p parts)).create pub (without u col) = .ok a')
    (hC : IsCombine (Combiner.compound (combinersOf lib.sigma p parts)).merge a out)
    (hC' : IsCombine (Combiner.compound (combinersOf lib.sigma p parts)).merge a' out')
    (G : K × (Combiner.compound (combinersOf lib.sigma p parts)).Acc → Gate) {ge gd : ℝ} (hgd : 0 ≤ gd)
    (hg : GateClose lib (out.map fun e => (⟨e.1, G e, numbersOf lib.sigma s p parts e⟩ : Candidate K))
      (out'.map fun e => (⟨e.1, G e, numbersOf lib.sigma s p parts e⟩ : Candidate K)) ge gd) :
    ∃ q : Pair lib (out.map fun e => (⟨e.1, G e, numbersOf lib.sigma s p parts e⟩ : Candidate K))
      (out'.map fun e => (⟨e.1, G e, numbersOf lib.sigma s p parts e⟩ : Candidate K)),
      q.labels = (flat lib.sigma p parts).map (fun x => (x.2.spec, x.2.comp)) ∧
      q.e = ge + ((flat lib.sigma p parts).map fun x => x.1 * ε x.2.spec).sum ∧
      q.d ≤ gd + ((flat lib.sigma p parts).map fun x => x.1 * δ x.2.spec).sum := by
  have hnf := number_facts hlib hp hok hsp B hB hK pub col u hu ha ha'
  obtain ⟨hl, hl2, -⟩ := flat_any lib.sigma p parts hok hnd
  have hpick : ∀ l x, pick lib.sigma p parts l = some x → x ∈ flat lib.sigma p parts := fun l x h =>
    List.mem_of_find?_eq_some h
  have hvp : ∀ acc : List (K × (Combiner.compound (combinersOf lib.sigma p parts)).Acc), ∀ l k,
      IsProbabilityMeasure (valOf lib.sigma s p parts acc l k) := by
    intro acc l k
    unfold valOf
    cases h : pick lib.sigma p parts l with
    | none => dsimp only; infer_instance
    | some x => exact (hnf x (hpick l x h)).2.2.2.2.1 _
  have hds : ∀ x ∈ flat lib.sigma p parts, 0 ≤ deltaShare p.noiseKind (x.1 * δ x.2.spec) ∧
      deltaShare p.noiseKind (x.1 * δ x.2.spec) ≤ x.1 * δ x.2.spec := by
    intro x hx
    obtain ⟨-, h1, -, h2, -⟩ := hnf x hx
    have := mul_nonneg h1 h2
    unfold deltaShare
    cases p.noiseKind <;> simp [this]
  refine ⟨{ gate := _, gate' := _, ge := ge, gd := gd,
            labels := (flat lib.sigma p parts).map fun x => (x.2.spec, x.2.comp),
            val := valOf lib.sigma s p parts a, val' := valOf lib.sigma s p parts a',
            ve := fun l => match pick lib.sigma p parts l with | some x => x.1 * ε x.2.spec | none => 0,
            vd := fun l => match pick lib.sigma p parts l with
              | some x => deltaShare p.noiseKind (x.1 * δ x.2.spec) | none => 0,
            gate_eq := fun k => rfl, gate_eq' := fun k => rfl, prob := hg.prob, prob' := hg.prob', nodup := hl,
            val_eq := fun k l h => numberLaw_eq lib.sigma s p parts hC G k l h,
            val_eq' := fun k l h => numberLaw_eq lib.sigma s p parts hC' G k l h,
            val_prob := hvp a, val_prob' := hvp a', gd_nonneg := hgd, vd_nonneg := ?_, close := hg.close, close' := hg.close',
            val_close := ?_, val_close' := ?_ }, rfl, ?_, ?_⟩
  · intro l
    cases h : pick lib.sigma p parts l with
    | none => exact le_rfl
    | some x => exact (hds x (hpick l x h)).1
  · intro l hl'
    obtain ⟨x, hx, rfl⟩ := List.mem_map.mp hl'
    have hv : ∀ acc, valOf lib.sigma s p parts acc (x.2.spec, x.2.comp) = fun k : K => noisy (getMech s x.2.mech x.2.spec)
        ((partitionTotal (fun c : (Combiner.compound (combinersOf lib.sigma p parts)).Acc => x.2.read c.2) acc k : ℚ) : ℝ) := by
      intro acc
      funext k
      unfold valOf
      rw [pick_label hl x hx]
    rw [pick_label hl x hx, hv, hv]
    intro ι _ f hf
    exact (hnf x hx).2.2.2.2.2.1 f hf
  · intro l hl'
    obtain ⟨x, hx, rfl⟩ := List.mem_map.mp hl'
    have hv : ∀ acc, valOf lib.sigma s p parts acc (x.2.spec, x.2.comp) = fun k : K => noisy (getMech s x.2.mech x.2.spec)
        ((partitionTotal (fun c : (Combiner.compound (combinersOf lib.sigma p parts)).Acc => x.2.read c.2) acc k : ℚ) : ℝ) := by
      intro acc
      funext k
      unfold valOf
      rw [pick_label hl x hx]
    rw [pick_label hl x hx, hv, hv]
    intro ι _ f hf
    exact (hnf x hx).2.2.2.2.2.2 f hf
  · unfold Pair.e
    dsimp only
    rw [List.map_map]
    congr 2
    apply List.map_congr_left
    intro x hx
    simp only [Function.comp_apply, pick_label hl x hx]
  · unfold Pair.d
    dsimp only
    rw [List.map_map]
    apply add_le_add le_rfl
    apply List.sum_le_sum
    intro x hx
    simp only [Function.comp_apply, pick_label hl x hx]
    exact (hds x hx).2

/-! ### Decisions of `aggregate` -/

theorem thresholdPart_spec (σ : ℝ → ℝ → ℝ → ℝ) (p : Params) (parts : List Part) (h : thSpecs parts ≠ []) :
    ∃ i, Part.thresholding i ∈ parts ∧ ∃ μ : Combiner.AccTuple (combinersOf σ p parts) → ℕ,
      (∀ a, thresholdPart σ p parts a = some (i, μ a)) ∧
      (∀ a b, μ (Combiner.mergeTuple _ a b) = μ a + μ b) ∧
      ∀ vs, vs ≠ [] → μ (Combiner.createTuple _ vs) = 1 := by
  induction parts with
  | nil => exact absurd rfl h
  | cons part parts ih =>
    have rest : (∀ i, part ≠ .thresholding i) → ∃ i, Part.thresholding i ∈ part :: parts ∧
        ∃ μ : Combiner.AccTuple (combinersOf σ p (part :: parts)) → ℕ,
        (∀ a, thresholdPart σ p (part :: parts) a = some (i, μ a)) ∧
        (∀ a b, μ (Combiner.mergeTuple _ a b) = μ a + μ b) ∧
        ∀ vs, vs ≠ [] → μ (Combiner.createTuple _ vs) = 1 := by
      intro hne
      have : thSpecs (part :: parts) = thSpecs parts := by
        cases part with
        | thresholding i => exact absurd rfl (hne i)
        | _ => rfl
      rw [this] at h
      obtain ⟨i, h1, μ, h2, h3, h4⟩ := ih h
      refine ⟨i, by simp [h1], fun a => μ a.2, ?_, fun a b => h3 a.2 b.2, fun vs hvs => h4 vs hvs⟩
      intro a
      rw [← h2 a.2]
      cases part with
      | thresholding i => exact absurd rfl (hne i)
      | _ => rfl
    cases part with
    | thresholding i =>
      refine ⟨i, by simp, fun a => (show ℕ from a.1), fun a => rfl, fun a b => rfl, ?_⟩
      intro vs hvs
      show (Combiner.privacyIdCount ℚ).create vs = (1 : ℕ)
      cases vs with
      | nil => exact absurd rfl hvs
      | cons v vs => rfl
    | _ => exact rest fun i hi => by cases hi

/-- Accumulators created from values count one each. -/
theorem count_combined {A : Type} {merge : A → A → A} {acc out : List (K × A)} (hC : IsCombine merge acc out) (μ : A → ℕ)
    (hμ : ∀ a b, μ (merge a b) = μ a + μ b) (h1 : ∀ e ∈ acc, μ e.2 = 1) (e : K × A) (he : e ∈ out) :
    μ e.2 = (valuesOf e.1 acc).length := by
  obtain ⟨t, h2, h3⟩ := hC.values e he
  rw [h3, eval_hom merge μ hμ, (h2.map _).sum_eq]
  have : ∀ l : List A, (∀ a ∈ l, μ a = 1) → (l.map μ).sum = l.length := by
    intro l
    induction l with
    | nil => simp
    | cons a l ih =>
      intro h
      rw [List.map_cons, List.sum_cons, h a (by simp), ih fun a ha => h a (by simp [ha]), List.length_cons, Nat.add_comm]
  exact this _ fun a ha => h1 _ (mem_valuesOf.mp ha)

theorem count_zero {A : Type} {merge : A → A → A} {acc out : List (K × A)} (hC : IsCombine merge acc out) (k : K) :
    (valuesOf k acc).length = 0 ↔ k ∉ out.map Prod.fst := by
  rw [hC.keys, ← valuesOf_ne_nil, not_not, List.length_eq_zero_iff]

/-- What the selection of partitions gets from two neighbouring datasets. -/
theorem gate_private {lib : Library} {F : ℕ → Measure (Bool × ℝ)} {e d : ℝ} {N : ℕ} {X : Type} {merge : X → X → X}
    {a a' out out' : List (K × X)} (hC : IsCombine merge a out) (hC' : IsCombine merge a' out')
    (hF : ∀ n, IsProbabilityMeasure (F n))
    (hdp : ∀ {ι : Type} [Fintype ι] (a b : ι → ℕ), (∀ i, b i ≤ a i ∧ a i ≤ b i + 1) → Fintype.card {i // a i ≠ b i} ≤ N →
      Indist e d (Measure.pi fun i => orAbsentLaw F (a i)) (Measure.pi fun i => orAbsentLaw F (b i)) ∧
      Indist e d (Measure.pi fun i => orAbsentLaw F (b i)) (Measure.pi fun i => orAbsentLaw F (a i)))
    {Y : Type} (E : List (K × Y)) {m : ℕ} (hm : 1 ≤ m)
    (hlen : ∀ k, (valuesOf k a).length = (valuesOf k a').length + (valuesOf k E).length)
    (hE : (E.map Prod.fst).dedup.length ≤ N) (hEm : ∀ k, (valuesOf k E).length ≤ m)
    (G : K × X → Gate) (nums : K × X → List (Noisy K))
    (hG : ∀ x ∈ out, (G x).law lib = F (divideAndRoundUp (valuesOf x.1 a).length m))
    (hG' : ∀ x ∈ out', (G x).law lib = F (divideAndRoundUp (valuesOf x.1 a').length m)) :
    GateClose lib (out.map fun e => (⟨e.1, G e, nums e⟩ : Candidate K))
      (out'.map fun e => (⟨e.1, G e, nums e⟩ : Candidate K)) e d := by
  refine gate_of_counts hF hdp (fun k => divideAndRoundUp (valuesOf k a).length m)
    (fun k => divideAndRoundUp (valuesOf k a').length m) ?_ (E.map Prod.fst) hE ?_ ?_ ?_
  · intro k
    apply divideAndRoundUp_near hm
    · rw [hlen k]; omega
    · rw [hlen k]; have := hEm k; omega
  · intro k hk
    rw [← valuesOf_ne_nil]
    intro h0
    apply hk
    rw [hlen k, h0]; rfl
  · intro k
    exact decisionLaw_counts lib out hC.nodup G nums F _
      (fun k => by rw [divideAndRoundUp_eq_zero hm, count_zero hC]) hG k
  · intro k
    exact decisionLaw_counts lib out' hC'.nodup G nums F _
      (fun k => by rw [divideAndRoundUp_eq_zero hm, count_zero hC']) hG' k

/-- Public partitions are released on both datasets. -/
theorem gate_public {lib : Library} {X : Type} {out out' : List (K × X)} (hn : (out.map Prod.fst).Nodup)
    (hn' : (out'.map Prod.fst).Nodup) (hk : ∀ k, k ∈ out.map Prod.fst ↔ k ∈ out'.map Prod.fst)
    (G : K × X → Gate) (nums : K × X → List (Noisy K)) (hG : ∀ x, G x = .always) :
    GateClose lib (out.map fun e => (⟨e.1, G e, nums e⟩ : Candidate K))
      (out'.map fun e => (⟨e.1, G e, nums e⟩ : Candidate K)) 0 0 := by
  have key : ∀ o : List (K × X), (o.map Prod.fst).Nodup → ∀ k,
      decisionLaw lib (o.map fun e => (⟨e.1, G e, nums e⟩ : Candidate K)) k
        = if k ∈ o.map Prod.fst then Measure.dirac (true, 0) else Measure.dirac (false, 0) := by
    intro o ho k
    obtain ⟨h1, h2⟩ := decisionLaw_map lib o ho G nums k
    by_cases h : k ∈ o.map Prod.fst
    · rw [if_pos h]
      obtain ⟨x, hx, rfl⟩ := List.mem_map.mp h
      rw [h1 x hx rfl, hG]; rfl
    · rw [if_neg h, h2 h]
  have heq : decisionLaw lib (out.map fun e => (⟨e.1, G e, nums e⟩ : Candidate K))
      = decisionLaw lib (out'.map fun e => (⟨e.1, G e, nums e⟩ : Candidate K)) := by
    funext k
    rw [key out hn, key out' hn']
    simp only [hk k]
  have hp : ∀ k, IsProbabilityMeasure (decisionLaw lib (out'.map fun e => (⟨e.1, G e, nums e⟩ : Candidate K)) k) := by
    intro k
    rw [key out' hn']
    split <;> infer_instance
  refine ⟨fun k => by rw [heq]; exact hp k, hp, ?_, ?_⟩ <;>
  · intro ι _ f hf
    rw [heq]
    exact Indist.refl _

end PDP.EndToEnd
