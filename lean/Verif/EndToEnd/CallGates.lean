import Verif.EndToEnd.CallNumbers

/-! # Which partitions are released: decisions on neighbouring datasets -/

set_option linter.unusedSectionVars false

namespace PDP.EndToEnd

open PDP PDP.Engine MeasureTheory
open PDP.Engine.AddNoise (specOf)
open PDP.Budget (State Op MechType)
open PDP.Approx (Indist)

variable {R P K : Type} [DecidableEq P] [DecidableEq K]

/-! ### Counts of privacy ids -/

theorem valuesOf_length {A : Type} (k : K) (l : List (K × A)) : (valuesOf k l).length = (l.map Prod.fst).count k := by
  unfold valuesOf
  rw [List.length_map, List.count_eq_length_filter, List.filter_map, List.length_map]
  congr 1

theorem partitionTotal_one {A : Type} (l : List (K × A)) (k : K) :
    partitionTotal (fun _ => 1) l k = ((valuesOf k l).length : ℚ) := by
  unfold partitionTotal
  induction valuesOf k l with
  | nil => simp
  | cons a l ih => rw [List.map_cons, List.sum_cons, ih, List.length_cons]; push_cast; ring

/-- Without public partitions every accumulator is made of some values. -/
theorem entries_created {V : Type} (B : Backend) (hB : B.Lawful) (p : Params) (hp : p.BoundsValid) (sampling : Bool) {A : Type}
    (create : List V → A) (col : List (P × K × V)) {a : List (K × A)}
    (ha : accumulators B p sampling create none col = .ok a) : ∀ e ∈ a, ∃ vs, vs ≠ [] ∧ e.2 = create vs := by
  obtain ⟨en, hE, h⟩ := accumulators_entries B hB p hp sampling create none col
  rw [ha] at h
  cases h
  intro e he
  obtain ⟨x, hx, rfl⟩ := List.mem_map.mp he
  refine ⟨x.2, ?_, rfl⟩
  cases hb : p.boundsEnforced with
  | true =>
    rw [hE.1 hb] at hx
    obtain ⟨r, -, rfl⟩ := List.mem_map.mp hx
    simp
  | false => exact (hE.2 hb).1.nonempty x hx

theorem length_le_sum {V : Type} (l : List (List V)) (h : ∀ x ∈ l, x ≠ []) : l.length ≤ (l.map List.length).sum := by
  induction l with
  | nil => simp
  | cons a l ih =>
    have h1 := List.length_pos_iff.mpr (h a (by simp))
    have h2 := ih fun x hx => h x (by simp [hx])
    simp only [List.length_cons, List.map_cons, List.sum_cons]
    omega

/-- One privacy id is counted at most `maxRows` times in a partition, and in at most `max_partitions_contributed` partitions. -/
theorem count_facts {V : Type} (B : Backend) (hB : B.Lawful) (hK : B.KeyLocal) (p : Params) (hp : p.BoundsValid)
    (hmc : p.maxContributions = none) (sampling : Bool) {A : Type} (create : List V → A) (pub : Option (List K))
    (col : List (P × K × V)) (u : P) (hu : CallerKeepsBounds p u col) {a a' : List (K × A)}
    (ha : accumulators B p sampling create pub col = .ok a)
    (ha' : accumulators B p sampling create pub (without u col) = .ok a') :
    ∃ E : List (K × List V), (∀ k, (valuesOf k a).length = (valuesOf k a').length + (valuesOf k E).length) ∧
      (∀ l0, p.maxPartitions = some l0 → (E.map Prod.fst).dedup.length ≤ l0) ∧
      ∀ m, maxRowsPerId p = .ok m → ∀ k, (valuesOf k E).length ≤ m := by
  obtain ⟨b, b', E, h1, h2, h3, h4⟩ := accumulators_change B hB hK p hp sampling create pub col u hu
  rw [ha] at h1; rw [ha'] at h2
  cases h1; cases h2
  refine ⟨E, fun k => ?_, h4.partitions, fun m hm k => ?_⟩
  · have := h3 (fun _ => 1) k
    rw [partitionTotal_one, partitionTotal_one, partitionTotal_one, sub_eq_iff_eq_add] at this
    have : (valuesOf k a).length = (valuesOf k E).length + (valuesOf k a').length := by exact_mod_cast this
    omega
  · unfold maxRowsPerId at hm
    cases hb : p.boundsEnforced with
    | true =>
      rw [hb, hmc] at hm
      simp only [if_true, Option.getD_none, ne_eq, not_true_eq_false, if_false] at hm
      obtain ⟨n, hn⟩ : ∃ n, p.maxPerPartition = some n := by
        cases hx : p.maxPerPartition with
        | none => rw [hx] at hm; simp [natArg] at hm
        | some n => exact ⟨n, rfl⟩
      rw [hn] at hm
      simp only [natArg, Except.ok.injEq] at hm
      subst hm
      refine (length_le_sum _ ?_).trans (h4.perPartition n hn (.inr hb) k)
      intro x hx
      exact h4.nonempty _ (mem_valuesOf.mp hx)
    | false =>
      rw [hb] at hm
      simp only [Bool.false_eq_true, if_false, Except.ok.injEq] at hm
      subst hm
      rw [valuesOf_length]
      exact List.nodup_iff_count_le_one.mp (h4.once hb) k

theorem divideAndRoundUp_near {m a b : ℕ} (hm : 1 ≤ m) (h1 : b ≤ a) (h2 : a ≤ b + m) :
    divideAndRoundUp b m ≤ divideAndRoundUp a m ∧ divideAndRoundUp a m ≤ divideAndRoundUp b m + 1 := by
  unfold divideAndRoundUp
  constructor
  · exact Nat.div_le_div_right (by omega)
  · have : (b + m - 1) / m + 1 = (b + m - 1 + m) / m := (Nat.add_div_right _ (by omega)).symm
    rw [this]
    exact Nat.div_le_div_right (by omega)

theorem divideAndRoundUp_eq_zero {m a : ℕ} (hm : 1 ≤ m) : divideAndRoundUp a m = 0 ↔ a = 0 := by
  unfold divideAndRoundUp
  rw [Nat.div_eq_zero_iff]
  omega

/-! ### Decisions -/

/-- The decisions of a call on two datasets are indistinguishable. -/
structure GateClose (lib : Library) (c c' : List (Candidate K)) (e d : ℝ) : Prop where
  prob : ∀ k, IsProbabilityMeasure (decisionLaw lib c k)
  prob' : ∀ k, IsProbabilityMeasure (decisionLaw lib c' k)
  close : Close e d (decisionLaw lib c) (decisionLaw lib c')
  close' : Close e d (decisionLaw lib c') (decisionLaw lib c)

theorem gate_of_counts {lib : Library} {c c' : List (Candidate K)} {F : ℕ → Measure (Bool × ℝ)} {e d : ℝ} {N : ℕ}
    (hF : ∀ n, IsProbabilityMeasure (F n))
    (hdp : ∀ {ι : Type} [Fintype ι] (a b : ι → ℕ), (∀ i, b i ≤ a i ∧ a i ≤ b i + 1) → Fintype.card {i // a i ≠ b i} ≤ N →
      Indist e d (Measure.pi fun i => orAbsentLaw F (a i)) (Measure.pi fun i => orAbsentLaw F (b i)) ∧
      Indist e d (Measure.pi fun i => orAbsentLaw F (b i)) (Measure.pi fun i => orAbsentLaw F (a i)))
    (n n' : K → ℕ) (hn : ∀ k, n' k ≤ n k ∧ n k ≤ n' k + 1) (D : List K) (hD : D.dedup.length ≤ N)
    (hne : ∀ k, n k ≠ n' k → k ∈ D) (hc : ∀ k, decisionLaw lib c k = orAbsentLaw F (n k))
    (hc' : ∀ k, decisionLaw lib c' k = orAbsentLaw F (n' k)) : GateClose lib c c' e d := by
  have hprob : ∀ n, IsProbabilityMeasure (orAbsentLaw F n) := by
    intro n
    unfold orAbsentLaw
    split
    · infer_instance
    · exact hF n
  have hcard : ∀ {ι : Type} [Fintype ι] (f : ι → K), Function.Injective f →
      Fintype.card {i // n (f i) ≠ n' (f i)} ≤ N := by
    intro ι _ f hf
    refine le_trans ?_ hD
    rw [← List.toFinset_card_of_nodup (List.nodup_dedup D), Fintype.card_subtype]
    refine Finset.card_le_card_of_injOn f ?_ fun x _ y _ hxy => hf hxy
    intro i hi
    simp only [Finset.coe_filter, Finset.mem_univ, true_and, Set.mem_ofPred_eq] at hi
    simp only [Finset.mem_coe, List.mem_toFinset, List.mem_dedup]
    exact hne _ hi
  have e1 : decisionLaw lib c = fun k => orAbsentLaw F (n k) := funext hc
  have e2 : decisionLaw lib c' = fun k => orAbsentLaw F (n' k) := funext hc'
  refine ⟨fun k => by rw [hc]; exact hprob _, fun k => by rw [hc']; exact hprob _, ?_, ?_⟩
  · intro ι _ f hf
    rw [e1, e2]
    exact (hdp (fun i => n (f i)) (fun i => n' (f i)) (fun i => hn (f i)) (hcard f hf)).1
  · intro ι _ f hf
    rw [e1, e2]
    exact (hdp (fun i => n (f i)) (fun i => n' (f i)) (fun i => hn (f i)) (hcard f hf)).2

/-- The selector as a distribution of decisions. -/
theorem selection_law {prob : Strategy → ℝ → ℝ → ℕ → Option ℕ → ℕ → ℝ} (h : SelectionContract prob) (st : Strategy) {e d : ℝ}
    {l0 : ℕ} (pre : Option ℕ) (he : 0 < e) (hd : 0 < d) (hl : 1 ≤ l0) :
    (∀ n, IsProbabilityMeasure ((coin (prob st e d l0 pre n)).map fun b => (b, (0 : ℝ)))) ∧
    ∀ {ι : Type} [Fintype ι] (a b : ι → ℕ), (∀ i, b i ≤ a i ∧ a i ≤ b i + 1) → Fintype.card {i // a i ≠ b i} ≤ l0 →
      Indist e d (Measure.pi fun i => orAbsentLaw (fun n => (coin (prob st e d l0 pre n)).map fun b => (b, (0 : ℝ))) (a i))
        (Measure.pi fun i => orAbsentLaw (fun n => (coin (prob st e d l0 pre n)).map fun b => (b, (0 : ℝ))) (b i)) ∧
      Indist e d (Measure.pi fun i => orAbsentLaw (fun n => (coin (prob st e d l0 pre n)).map fun b => (b, (0 : ℝ))) (b i))
        (Measure.pi fun i => orAbsentLaw (fun n => (coin (prob st e d l0 pre n)).map fun b => (b, (0 : ℝ))) (a i)) := by
  have hm : Measurable fun b : Bool => (b, (0 : ℝ)) := measurable_of_countable _
  have hp : ∀ n, IsProbabilityMeasure (coin (prob st e d l0 pre n)) := fun n =>
    coin_prob (h.range st e d l0 pre n).1 (h.range st e d l0 pre n).2
  have hp' : ∀ n, IsProbabilityMeasure (coin (orAbsent (prob st e d l0 pre) n)) := by
    intro n
    unfold orAbsent
    split
    · exact coin_prob le_rfl (by norm_num)
    · exact hp n
  refine ⟨fun n => Measure.isProbabilityMeasure_map hm.aemeasurable, ?_⟩
  intro ι _ a b hab hcard
  have hlaw : ∀ n, orAbsentLaw (fun n => (coin (prob st e d l0 pre n)).map fun b => (b, (0 : ℝ))) n
      = (coin (orAbsent (prob st e d l0 pre) n)).map fun b => (b, (0 : ℝ)) := by
    intro n
    unfold orAbsentLaw orAbsent
    split
    · rw [coin_zero, Measure.map_dirac' hm]
    · rfl
  have hpi : ∀ c : ι → ℕ, (Measure.pi fun i =>
      orAbsentLaw (fun n => (coin (prob st e d l0 pre n)).map fun b => (b, (0 : ℝ))) (c i))
      = (Measure.pi fun i => coin (orAbsent (prob st e d l0 pre) (c i))).map fun x i => (x i, (0 : ℝ)) := by
    intro c
    simp only [hlaw]
    rw [Measure.pi_map_pi fun i => hm.aemeasurable]
  have hmm : Measurable fun (x : ι → Bool) i => (x i, (0 : ℝ)) :=
    measurable_pi_iff.mpr fun i => hm.comp (measurable_pi_apply i)
  obtain ⟨h1, h2⟩ := h.dp st e d l0 pre he hd hl a b hab hcard
  rw [hpi, hpi]
  exact ⟨h1.map hmm, h2.map hmm⟩

/-- Decision on a partition among candidates with distinct keys. -/
theorem decisionLaw_map {X : Type} (lib : Library) (out : List (K × X)) (hn : (out.map Prod.fst).Nodup)
    (G : K × X → Gate) (N : K × X → List (Noisy K)) (k : K) :
    (∀ e ∈ out, e.1 = k → decisionLaw lib (out.map fun e => (⟨e.1, G e, N e⟩ : Candidate K)) k = (G e).law lib) ∧
    (k ∉ out.map Prod.fst →
      decisionLaw lib (out.map fun e => (⟨e.1, G e, N e⟩ : Candidate K)) k = Measure.dirac (false, 0)) := by
  unfold decisionLaw
  rw [List.find?_map]
  constructor
  · intro e he hk
    have : out.find? ((fun c : Candidate K => decide (c.key = k)) ∘ fun e => ⟨e.1, G e, N e⟩) = some e := by
      induction out with
      | nil => simp at he
      | cons x out ih =>
        rw [List.map_cons, List.nodup_cons] at hn
        rw [List.find?_cons]
        by_cases hx : x.1 = k
        · have : ((fun c : Candidate K => decide (c.key = k)) ∘ fun e => ⟨e.1, G e, N e⟩) x = true := by simpa using hx
          rw [this]
          rcases List.mem_cons.mp he with rfl | he
          · rfl
          · exact absurd (List.mem_map.mpr ⟨e, he, hk.trans hx.symm⟩) hn.1
        · have : ((fun c : Candidate K => decide (c.key = k)) ∘ fun e => ⟨e.1, G e, N e⟩) x = false := by simpa using hx
          rw [this]
          rcases List.mem_cons.mp he with rfl | he
          · exact absurd hk hx
          · exact ih hn.2 he
    rw [this]; rfl
  · intro hk
    have : out.find? ((fun c : Candidate K => decide (c.key = k)) ∘ fun e => ⟨e.1, G e, N e⟩) = none := by
      rw [List.find?_eq_none]
      intro x hx
      simp only [Function.comp_apply, decide_eq_true_eq]
      intro hxk
      exact hk (List.mem_map.mpr ⟨x, hx, hxk⟩)
    rw [this]; rfl

/-- Candidates whose decision depends on a count which is zero exactly for absent partitions. -/
theorem decisionLaw_counts {X : Type} (lib : Library) (out : List (K × X)) (hn : (out.map Prod.fst).Nodup)
    (G : K × X → Gate) (N : K × X → List (Noisy K)) (F : ℕ → Measure (Bool × ℝ)) (n : K → ℕ)
    (h0 : ∀ k, n k = 0 ↔ k ∉ out.map Prod.fst) (hG : ∀ e ∈ out, (G e).law lib = F (n e.1)) (k : K) :
    decisionLaw lib (out.map fun e => (⟨e.1, G e, N e⟩ : Candidate K)) k = orAbsentLaw F (n k) := by
  obtain ⟨h1, h2⟩ := decisionLaw_map lib out hn G N k
  unfold orAbsentLaw
  by_cases hk : k ∈ out.map Prod.fst
  · rw [if_neg fun h => (h0 k).mp h hk]
    obtain ⟨e, he, rfl⟩ := List.mem_map.mp hk
    rw [h1 e he rfl, hG e he]
  · rw [if_pos ((h0 k).mpr hk), h2 hk]

end PDP.EndToEnd
