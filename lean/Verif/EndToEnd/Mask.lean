import Verif.EndToEnd.CallsSpec

/-!
# Composition of the releases of all calls

The numbers of partitions that are not released are not seen, so they may be replaced by any noise.
-/

namespace PDP.EndToEnd

open PDP PDP.Engine MeasureTheory
open PDP.Approx (Indist)

variable {R P K : Type} [DecidableEq P] [DecidableEq K]

omit [DecidableEq K] in
theorem getD_nil {L : List (List (Candidate K))} {j : ℕ} (h : L.length ≤ j) : L.getD j [] = [] := by
  rw [List.getD_eq_getElem?_getD, List.getElem?_eq_none h]; rfl

theorem measurable_hide {ι κ : Type} : Measurable (hide : (ι → Bool × ℝ) × (ι × κ → ℝ) → _) := by
  refine Measurable.prodMk measurable_fst ?_
  refine measurable_pi_iff.mpr fun i => ?_
  refine Measurable.ite ?_ ?_ measurable_const
  · have h : Measurable fun x : (ι → Bool × ℝ) × (ι × κ → ℝ) => (x.1 i.1).1 :=
      measurable_fst.comp ((measurable_pi_apply i.1).comp measurable_fst)
    exact h (MeasurableSet.singleton true)
  · exact (measurable_pi_apply i).comp measurable_snd

/-- Numbers of partitions which are never released are irrelevant. -/
theorem hide_replace {ι κ : Type} [Fintype ι] [Fintype κ] (g : ι → Measure (Bool × ℝ)) (ν ν' : ι × κ → Measure ℝ)
    [∀ i, IsProbabilityMeasure (g i)] [∀ i, IsProbabilityMeasure (ν i)] [∀ i, IsProbabilityMeasure (ν' i)]
    (h : ∀ i s, ν (i, s) = ν' (i, s) ∨ g i = Measure.dirac (false, 0)) :
    ((Measure.pi g).prod (Measure.pi ν)).map hide = ((Measure.pi g).prod (Measure.pi ν')).map hide := by
  classical
  let f : ι × κ → ℝ → ℝ := fun i x => if g i.1 = Measure.dirac (false, 0) then 0 else x
  have hf : ∀ i, Measurable (f i) := by
    intro i
    simp only [f]
    split
    · exact measurable_const
    · exact measurable_id
  have key : ∀ ρ : ι × κ → Measure ℝ, (∀ i, IsProbabilityMeasure (ρ i)) →
      ((Measure.pi g).prod (Measure.pi ρ)).map hide
        = ((Measure.pi g).prod (Measure.pi fun i => (ρ i).map (f i))).map hide := by
    intro ρ hρ
    have hz : Measurable fun (x : ι × κ → ℝ) i => f i (x i) :=
      measurable_pi_iff.mpr fun i => (hf i).comp (measurable_pi_apply i)
    have e1 : ((Measure.pi g).prod (Measure.pi fun i => (ρ i).map (f i)))
        = ((Measure.pi g).prod (Measure.pi ρ)).map (Prod.map id fun (x : ι × κ → ℝ) i => f i (x i)) := by
      rw [← Measure.map_prod_map _ _ measurable_id hz, Measure.map_id,
        Measure.pi_map_pi fun i => (hf i).aemeasurable]
    rw [e1, Measure.map_map measurable_hide (measurable_id.prodMap hz)]
    apply Measure.map_congr
    have hae : ∀ i, g i = Measure.dirac (false, 0) →
        ∀ᵐ x ∂((Measure.pi g).prod (Measure.pi ρ)), (x.1 i).1 = false := by
      intro i hi
      have h1 : ∀ᵐ y ∂(g i), y.1 = false := by
        rw [hi, ae_dirac_iff]
        exact (measurable_fst : Measurable (Prod.fst : Bool × ℝ → Bool)) (MeasurableSet.singleton false)
      have h2 : ∀ᵐ y ∂(Measure.pi g), (y i).1 = false :=
        (Measure.quasiMeasurePreserving_eval g i).ae h1
      exact Measure.quasiMeasurePreserving_fst.ae h2
    have hall : ∀ᵐ x ∂((Measure.pi g).prod (Measure.pi ρ)), ∀ i, g i = Measure.dirac (false, 0) → (x.1 i).1 = false := by
      rw [ae_all_iff]
      intro i
      by_cases hi : g i = Measure.dirac (false, 0)
      · exact (hae i hi).mono fun x hx _ => hx
      · exact Filter.Eventually.of_forall fun x hh => absurd hh hi
    filter_upwards [hall] with x hx
    refine Prod.ext rfl (funext fun i => ?_)
    show (if (x.1 i.1).1 = true then x.2 i else 0) = if (x.1 i.1).1 = true then f i (x.2 i) else 0
    by_cases hi : g i.1 = Measure.dirac (false, 0)
    · simp [hx i.1 hi]
    · simp only [f]
      rw [if_neg hi]
  rw [key ν inferInstance, key ν' inferInstance]
  congr 3
  funext i
  rcases h i.1 i.2 with hh | hh
  · rw [show ν i = ν' i from hh]
  · have : f i = fun _ => 0 := by
      funext x
      simp only [f]; rw [if_pos hh]
    rw [this, Measure.map_const, Measure.map_const]
    simp

/-- Two families of distributions are indistinguishable on any set of keys. -/
def Close {X : Type} [MeasurableSpace X] (e d : ℝ) (μ ν : K → Measure X) : Prop :=
  ∀ {ι : Type} [Fintype ι] (f : ι → K), Function.Injective f →
    Indist e d (Measure.pi fun i => μ (f i)) (Measure.pi fun i => ν (f i))

/-- What has to be known of the candidates `c`, `c'` of a call on two datasets: distributions of decisions, and of the numbers
with given labels, which are indistinguishable. -/
structure Pair (lib : Library) (c c' : List (Candidate K)) where
  gate : K → Measure (Bool × ℝ)
  gate' : K → Measure (Bool × ℝ)
  ge : ℝ
  gd : ℝ
  labels : List (ℕ × ℕ)
  val : ℕ × ℕ → K → Measure ℝ
  val' : ℕ × ℕ → K → Measure ℝ
  ve : ℕ × ℕ → ℝ
  vd : ℕ × ℕ → ℝ
  gate_eq : ∀ k, decisionLaw lib c k = gate k
  gate_eq' : ∀ k, decisionLaw lib c' k = gate' k
  prob : ∀ k, IsProbabilityMeasure (gate k)
  prob' : ∀ k, IsProbabilityMeasure (gate' k)
  nodup : labels.Nodup
  val_eq : ∀ k l, (c.find? fun x => x.key = k).isSome → numberLaw c k l = if l ∈ labels then val l k else Measure.dirac 0
  val_eq' : ∀ k l, (c'.find? fun x => x.key = k).isSome → numberLaw c' k l = if l ∈ labels then val' l k else Measure.dirac 0
  val_prob : ∀ l k, IsProbabilityMeasure (val l k)
  val_prob' : ∀ l k, IsProbabilityMeasure (val' l k)
  gd_nonneg : 0 ≤ gd
  vd_nonneg : ∀ l, 0 ≤ vd l
  close : Close ge gd gate gate'
  close' : Close ge gd gate' gate
  val_close : ∀ l ∈ labels, Close (ve l) (vd l) (val l) (val' l)
  val_close' : ∀ l ∈ labels, Close (ve l) (vd l) (val' l) (val l)

/-- Privacy loss of a call. -/
def Pair.e {lib : Library} {c c' : List (Candidate K)} (p : Pair lib c c') : ℝ := p.ge + (p.labels.map p.ve).sum

def Pair.d {lib : Library} {c c' : List (Candidate K)} (p : Pair lib c c') : ℝ := p.gd + (p.labels.map p.vd).sum

def Pair.swap {lib : Library} {c c' : List (Candidate K)} (p : Pair lib c c') : Pair lib c' c :=
  { gate := p.gate', gate' := p.gate, ge := p.ge, gd := p.gd, labels := p.labels, val := p.val', val' := p.val, ve := p.ve,
    vd := p.vd, gate_eq := p.gate_eq', gate_eq' := p.gate_eq, prob := p.prob', prob' := p.prob, nodup := p.nodup,
    val_eq := p.val_eq', val_eq' := p.val_eq, val_prob := p.val_prob', val_prob' := p.val_prob, gd_nonneg := p.gd_nonneg,
    vd_nonneg := p.vd_nonneg, close := p.close', close' := p.close, val_close := p.val_close', val_close' := p.val_close }

/-- The numbers, also for absent partitions. -/
noncomputable def Pair.number {lib : Library} {c c' : List (Candidate K)} (p : Pair lib c c') (k : K) (l : ℕ × ℕ) : Measure ℝ :=
  if l ∈ p.labels then p.val l k else Measure.dirac 0

theorem Pair.number_prob {lib : Library} {c c' : List (Candidate K)} (p : Pair lib c c') (k : K) (l : ℕ × ℕ) :
    IsProbabilityMeasure (p.number k l) := by
  unfold Pair.number
  split
  · exact p.val_prob l k
  · infer_instance

theorem Pair.numberLaw_prob {lib : Library} {c c' : List (Candidate K)} (p : Pair lib c c') (k : K) (l : ℕ × ℕ) :
    IsProbabilityMeasure (numberLaw c k l) := by
  by_cases h : (c.find? fun x => x.key = k).isSome
  · rw [p.val_eq k l h]
    exact p.number_prob k l
  · unfold numberLaw
    rw [Option.not_isSome_iff_eq_none.mp h]
    infer_instance

theorem Pair.number_eq {lib : Library} {c c' : List (Candidate K)} (p : Pair lib c c') (k : K) (l : ℕ × ℕ) :
    numberLaw c k l = p.number k l ∨ decisionLaw lib c k = Measure.dirac (false, 0) := by
  by_cases h : (c.find? fun x => x.key = k).isSome
  · exact .inl (p.val_eq k l h)
  · right
    unfold decisionLaw
    rw [Option.not_isSome_iff_eq_none.mp h]

theorem observedLaw_prob {lib : Library} {L L' : List (List (Candidate K))}
    (p : ∀ j, Pair lib (L.getD j []) (L'.getD j [])) (U : Finset (ℕ × K)) (S : Finset (ℕ × ℕ)) :
    IsProbabilityMeasure (observedLaw lib U S L) := by
  have h1 : ∀ u : U, IsProbabilityMeasure (decisionLaw lib (L.getD u.1.1 []) u.1.2) := by
    intro u; rw [(p u.1.1).gate_eq]; exact (p u.1.1).prob _
  have h2 : ∀ i : U × S, IsProbabilityMeasure (numberLaw (L.getD i.1.1.1 []) i.1.1.2 i.2.1) := fun i =>
    (p i.1.1.1).numberLaw_prob _ _
  unfold observedLaw
  exact Measure.isProbabilityMeasure_map measurable_hide.aemeasurable

/-- Composition over all calls. -/
theorem observed_indist {lib : Library} {L L' : List (List (Candidate K))} (n : ℕ)
    (p : ∀ j, Pair lib (L.getD j []) (L'.getD j []))
    (hL : L.length = n) (hL' : L'.length = n) (U : Finset (ℕ × K)) (S : Finset (ℕ × ℕ)) :
    Indist ((List.range n).map fun j => (p j).e).sum ((List.range n).map fun j => (p j).d).sum
      (observedLaw lib U S L) (observedLaw lib U S L') := by
  have h1 : ∀ u : U, IsProbabilityMeasure (decisionLaw lib (L.getD u.1.1 []) u.1.2) := by
    intro u; rw [(p u.1.1).gate_eq]; exact (p u.1.1).prob _
  have h1' : ∀ u : U, IsProbabilityMeasure (decisionLaw lib (L'.getD u.1.1 []) u.1.2) := by
    intro u; rw [(p u.1.1).gate_eq']; exact (p u.1.1).prob' _
  have h2 : ∀ i : U × S, IsProbabilityMeasure (numberLaw (L.getD i.1.1.1 []) i.1.1.2 i.2.1) := fun i =>
    (p i.1.1.1).numberLaw_prob _ _
  have h2' : ∀ i : U × S, IsProbabilityMeasure (numberLaw (L'.getD i.1.1.1 []) i.1.1.2 i.2.1) := fun i =>
    (p i.1.1.1).swap.numberLaw_prob _ _
  have h3 : ∀ i : U × S, IsProbabilityMeasure ((p i.1.1.1).number i.1.1.2 i.2.1) := fun i => (p i.1.1.1).number_prob _ _
  have h3' : ∀ i : U × S, IsProbabilityMeasure ((p i.1.1.1).swap.number i.1.1.2 i.2.1) := fun i =>
    (p i.1.1.1).swap.number_prob _ _
  have e1 : observedLaw lib U S L = ((Measure.pi fun u : U => decisionLaw lib (L.getD u.1.1 []) u.1.2).prod
      (Measure.pi fun i : U × S => (p i.1.1.1).number i.1.1.2 i.2.1)).map hide :=
    hide_replace (fun u : U => decisionLaw lib (L.getD u.1.1 []) u.1.2)
      (fun i : U × S => numberLaw (L.getD i.1.1.1 []) i.1.1.2 i.2.1)
      (fun i : U × S => (p i.1.1.1).number i.1.1.2 i.2.1) fun u s => (p u.1.1).number_eq u.1.2 s.1
  have e1' : observedLaw lib U S L' = ((Measure.pi fun u : U => decisionLaw lib (L'.getD u.1.1 []) u.1.2).prod
      (Measure.pi fun i : U × S => (p i.1.1.1).swap.number i.1.1.2 i.2.1)).map hide :=
    hide_replace (fun u : U => decisionLaw lib (L'.getD u.1.1 []) u.1.2)
      (fun i : U × S => numberLaw (L'.getD i.1.1.1 []) i.1.1.2 i.2.1)
      (fun i : U × S => (p i.1.1.1).swap.number i.1.1.2 i.2.1) fun u s => (p u.1.1).swap.number_eq u.1.2 s.1
  rw [e1, e1']
  -- decisions, grouped by call
  have hg : Indist ((List.range n).map fun j => (p j).ge).sum ((List.range n).map fun j => (p j).gd).sum
      (Measure.pi fun u : U => decisionLaw lib (L.getD u.1.1 []) u.1.2)
      (Measure.pi fun u : U => decisionLaw lib (L'.getD u.1.1 []) u.1.2) := by
    refine Indist.groups (List.range n) List.nodup_range (fun j => (p j).ge) (fun j => (p j).gd)
      (fun j _ => (p j).gd_nonneg) (fun u : U => u.1.1) _ _ ?_ ?_
    · intro u hu
      have hj : n ≤ u.1.1 := by simpa using hu
      rw [getD_nil (by omega), getD_nil (by omega)]
    · intro j hj
      have := (p j).close (fun i : {u : U // u.1.1 = j} => i.1.1.2) (by
        rintro ⟨⟨⟨a, b⟩, h⟩, rfl⟩ ⟨⟨⟨a', b'⟩, h'⟩, hh⟩ hab
        simp only at hab hh
        subst hab; subst hh; rfl)
      have f1 : (fun i : {u : U // u.1.1 = j} => decisionLaw lib (L.getD i.1.1.1 []) i.1.1.2)
          = fun i => (p j).gate i.1.1.2 := by
        funext i; rw [← (p j).gate_eq, i.2]
      have f2 : (fun i : {u : U // u.1.1 = j} => decisionLaw lib (L'.getD i.1.1.1 []) i.1.1.2)
          = fun i => (p j).gate' i.1.1.2 := by
        funext i; rw [← (p j).gate_eq', i.2]
      rw [f1, f2]
      convert this
  -- numbers, grouped by call and label
  set gs : List (ℕ × ℕ × ℕ) := (List.range n).flatMap fun j => (p j).labels.map fun l => (j, l) with hgs
  have hnd : gs.Nodup := by
    rw [hgs, List.nodup_flatMap]
    constructor
    · intro j _
      exact (p j).nodup.map fun a b hab => by simpa using hab
    · refine List.Pairwise.imp ?_ (List.nodup_range (n := n))
      intro a b hab
      simp only [Function.onFun]
      intro x hx hx'
      obtain ⟨l, -, rfl⟩ := List.mem_map.mp hx
      obtain ⟨l', -, h⟩ := List.mem_map.mp hx'
      exact hab (congrArg Prod.fst h).symm
  have hmem : ∀ j l, (j, l) ∈ gs ↔ j < n ∧ l ∈ (p j).labels := by
    intro j l
    rw [hgs, List.mem_flatMap]
    constructor
    · rintro ⟨i, hi, h⟩
      obtain ⟨m, hm, hh⟩ := List.mem_map.mp h
      simp only [Prod.mk.injEq] at hh
      obtain ⟨rfl, rfl⟩ := hh
      exact ⟨List.mem_range.mp hi, hm⟩
    · rintro ⟨hj, hl⟩
      exact ⟨j, List.mem_range.mpr hj, List.mem_map.mpr ⟨l, hl, rfl⟩⟩
  have hsum : ∀ f : ℕ → ℕ × ℕ → ℝ, (gs.map fun x => f x.1 x.2).sum
      = ((List.range n).map fun j => ((p j).labels.map (f j)).sum).sum := by
    intro f
    rw [hgs, List.map_flatMap, List.flatMap_def, List.sum_flatten, List.map_map]
    congr 1
    apply List.map_congr_left
    intro j _
    simp only [Function.comp_apply, List.map_map]
    rfl
  -- beyond the calls, nothing is released: use the empty pair
  let num : ℕ → K → ℕ × ℕ → Measure ℝ := fun j k l => if j < n then (p j).number k l else Measure.dirac 0
  let num' : ℕ → K → ℕ × ℕ → Measure ℝ := fun j k l => if j < n then (p j).swap.number k l else Measure.dirac 0
  have hp1 : ∀ i : U × S, IsProbabilityMeasure (num i.1.1.1 i.1.1.2 i.2.1) := by
    intro i; simp only [num]; split
    · exact h3 i
    · infer_instance
  have hp1' : ∀ i : U × S, IsProbabilityMeasure (num' i.1.1.1 i.1.1.2 i.2.1) := by
    intro i; simp only [num']; split
    · exact h3' i
    · infer_instance
  have r1 : ((Measure.pi fun u : U => decisionLaw lib (L.getD u.1.1 []) u.1.2).prod
      (Measure.pi fun i : U × S => (p i.1.1.1).number i.1.1.2 i.2.1)).map hide
      = ((Measure.pi fun u : U => decisionLaw lib (L.getD u.1.1 []) u.1.2).prod
      (Measure.pi fun i : U × S => num i.1.1.1 i.1.1.2 i.2.1)).map hide := by
    refine hide_replace (fun u : U => decisionLaw lib (L.getD u.1.1 []) u.1.2) _ _ fun u s => ?_
    by_cases hj : u.1.1 < n
    · left; simp only [num]; rw [if_pos hj]
    · right; rw [getD_nil (by omega)]; rfl
  have r1' : ((Measure.pi fun u : U => decisionLaw lib (L'.getD u.1.1 []) u.1.2).prod
      (Measure.pi fun i : U × S => (p i.1.1.1).swap.number i.1.1.2 i.2.1)).map hide
      = ((Measure.pi fun u : U => decisionLaw lib (L'.getD u.1.1 []) u.1.2).prod
      (Measure.pi fun i : U × S => num' i.1.1.1 i.1.1.2 i.2.1)).map hide := by
    refine hide_replace (fun u : U => decisionLaw lib (L'.getD u.1.1 []) u.1.2) _ _ fun u s => ?_
    by_cases hj : u.1.1 < n
    · left; simp only [num']; rw [if_pos hj]
    · right; rw [getD_nil (by omega)]; rfl
  rw [r1, r1']
  have hv : Indist ((List.range n).map fun j => ((p j).labels.map (p j).ve).sum).sum
      ((List.range n).map fun j => ((p j).labels.map (p j).vd).sum).sum
      (Measure.pi fun i : U × S => num i.1.1.1 i.1.1.2 i.2.1) (Measure.pi fun i : U × S => num' i.1.1.1 i.1.1.2 i.2.1) := by
    rw [← hsum fun j => (p j).ve, ← hsum fun j => (p j).vd]
    refine Indist.groups gs hnd (fun x => (p x.1).ve x.2) (fun x => (p x.1).vd x.2) (fun x _ => (p x.1).vd_nonneg _)
      (fun i : U × S => (i.1.1.1, i.2.1)) _ _ ?_ ?_
    · intro i hi
      rw [hmem] at hi
      simp only [num, num']
      by_cases hj : i.1.1.1 < n
      · rw [if_pos hj, if_pos hj]
        have hl : i.2.1 ∉ (p i.1.1.1).labels := fun h => hi ⟨hj, h⟩
        unfold Pair.number
        rw [if_neg hl, if_neg (show i.2.1 ∉ (p i.1.1.1).swap.labels from hl)]
      · rw [if_neg hj, if_neg hj]
    · rintro ⟨j, l⟩ hx
      obtain ⟨hj, hl⟩ := (hmem j l).mp hx
      have := (p j).val_close l hl (fun i : {i : U × S // (i.1.1.1, i.2.1) = (j, l)} => i.1.1.1.2) (by
        rintro ⟨⟨⟨⟨a, b⟩, h⟩, ⟨s, hs⟩⟩, e⟩ ⟨⟨⟨⟨a', b'⟩, h'⟩, ⟨s', hs'⟩⟩, e'⟩ hab
        simp only [Prod.mk.injEq] at hab e e'
        obtain ⟨rfl, rfl⟩ := e
        obtain ⟨rfl, rfl⟩ := e'
        subst hab; rfl)
      have f1 : (fun i : {i : U × S // (i.1.1.1, i.2.1) = (j, l)} => num i.1.1.1.1 i.1.1.1.2 i.1.2.1)
          = fun i => (p j).val l i.1.1.1.2 := by
        funext i
        have := i.2
        simp only [Prod.mk.injEq] at this
        rw [this.1, this.2]
        simp only [num, Pair.number]
        rw [if_pos hj, if_pos hl]
      have f2 : (fun i : {i : U × S // (i.1.1.1, i.2.1) = (j, l)} => num' i.1.1.1.1 i.1.1.1.2 i.1.2.1)
          = fun i => (p j).val' l i.1.1.1.2 := by
        funext i
        have := i.2
        simp only [Prod.mk.injEq] at this
        rw [this.1, this.2]
        simp only [num', Pair.number]
        rw [if_pos hj, if_pos (show l ∈ (p j).swap.labels from hl)]
        rfl
      rw [f1, f2]
      convert this
  have hfin := ((hg.prod hv ?_ ?_).map measurable_hide)
  · refine hfin.mono (le_of_eq ?_) (le_of_eq ?_)
    · rw [← List.sum_map_add]; rfl
    · rw [← List.sum_map_add]; rfl
  · exact List.sum_nonneg fun x hx => by
      obtain ⟨j, -, rfl⟩ := List.mem_map.mp hx
      exact (p j).gd_nonneg
  · exact List.sum_nonneg fun x hx => by
      obtain ⟨j, -, rfl⟩ := List.mem_map.mp hx
      exact List.sum_nonneg fun y hy => by
        obtain ⟨l, -, rfl⟩ := List.mem_map.mp hy
        exact (p j).vd_nonneg l

end PDP.EndToEnd
