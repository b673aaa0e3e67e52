import Verif.EndToEnd.Mask

/-!
# Composition of the releases of all calls, for outputs of any type

As `Mask.lean`, for the outputs of custom combiners (C74), which need not be numbers.
-/

namespace PDP.EndToEnd

open PDP PDP.Engine MeasureTheory
open PDP.Approx (Indist)

variable {K Λ X : Type} [DecidableEq K] [DecidableEq Λ] [MeasurableSpace X]

/-- The outputs of a partition are seen only if the partition is released; `x0` stands for "not seen". -/
def veil {ι κ X : Type} (x0 : X) (x : (ι → Bool × ℝ) × (ι × κ → X)) : (ι → Bool × ℝ) × (ι × κ → X) :=
  (x.1, fun i => if (x.1 i.1).1 then x.2 i else x0)

/-- What is observed: for every call `j` and partition `k` with `(j, k) ∈ U`, whether the partition is released (`D`), and then
its outputs with the labels `S` (`N`).  All decisions and all outputs are independent. -/
noncomputable def veiledLaw (x0 : X) (U : Finset (ℕ × K)) (S : Finset Λ) (D : ℕ → K → Measure (Bool × ℝ))
    (N : ℕ → K → Λ → Measure X) : Measure ((U → Bool × ℝ) × (U × S → X)) :=
  ((Measure.pi fun u : U => D u.1.1 u.1.2).prod (Measure.pi fun i : U × S => N i.1.1.1 i.1.1.2 i.2.1)).map (veil x0)

theorem measurable_veil {ι κ : Type} (x0 : X) : Measurable (veil x0 : (ι → Bool × ℝ) × (ι × κ → X) → _) := by
  refine Measurable.prodMk measurable_fst ?_
  refine measurable_pi_iff.mpr fun i => ?_
  refine Measurable.ite ?_ ?_ measurable_const
  · have h : Measurable fun x : (ι → Bool × ℝ) × (ι × κ → X) => (x.1 i.1).1 :=
      measurable_fst.comp ((measurable_pi_apply i.1).comp measurable_fst)
    exact h (MeasurableSet.singleton true)
  · exact (measurable_pi_apply i).comp measurable_snd

/-- Numbers of partitions which are never released are irrelevant. -/
theorem veil_replace (x0 : X) {ι κ : Type} [Fintype ι] [Fintype κ] (g : ι → Measure (Bool × ℝ)) (ν ν' : ι × κ → Measure X)
    [∀ i, IsProbabilityMeasure (g i)] [∀ i, IsProbabilityMeasure (ν i)] [∀ i, IsProbabilityMeasure (ν' i)]
    (h : ∀ i s, ν (i, s) = ν' (i, s) ∨ g i = Measure.dirac (false, 0)) :
    ((Measure.pi g).prod (Measure.pi ν)).map (veil x0) = ((Measure.pi g).prod (Measure.pi ν')).map (veil x0) := by
  classical
  let f : ι × κ → X → X := fun i x => if g i.1 = Measure.dirac (false, 0) then x0 else x
  have hf : ∀ i, Measurable (f i) := by
    intro i
    simp only [f]
    split
    · exact measurable_const
    · exact measurable_id
  have key : ∀ ρ : ι × κ → Measure X, (∀ i, IsProbabilityMeasure (ρ i)) →
      ((Measure.pi g).prod (Measure.pi ρ)).map (veil x0)
        = ((Measure.pi g).prod (Measure.pi fun i => (ρ i).map (f i))).map (veil x0) := by
    intro ρ hρ
    have hz : Measurable fun (x : ι × κ → X) i => f i (x i) :=
      measurable_pi_iff.mpr fun i => (hf i).comp (measurable_pi_apply i)
    have e1 : ((Measure.pi g).prod (Measure.pi fun i => (ρ i).map (f i)))
        = ((Measure.pi g).prod (Measure.pi ρ)).map (Prod.map id fun (x : ι × κ → X) i => f i (x i)) := by
      rw [← Measure.map_prod_map _ _ measurable_id hz, Measure.map_id,
        Measure.pi_map_pi fun i => (hf i).aemeasurable]
    rw [e1, Measure.map_map (measurable_veil x0) (measurable_id.prodMap hz)]
    apply Measure.map_congr
    have hae : ∀ i, g i = Measure.dirac (false, 0) →
        ∀ᵐ x ∂((Measure.pi g).prod (Measure.pi ρ)), (x.1 i).1 = false := by
      intro i hi
      have h1 : ∀ᵐ y ∂(g i), y.1 = false := by
        rw [hi, ae_dirac_iff]
        exact (measurable_fst : Measurable (Prod.fst : Bool × ℝ → Bool)) (MeasurableSet.singleton false)
      have h2 : ∀ᵐ y ∂(Measure.pi g), (y i).1 = false :=
        (Measure.quasiMeasurePreserving_eval g i).ae h1
      exact Measure.quasiMeasurePreserving_fst.ae h2
    have hall : ∀ᵐ x ∂((Measure.pi g).prod (Measure.pi ρ)), ∀ i, g i = Measure.dirac (false, 0) → (x.1 i).1 = false := by
      rw [ae_all_iff]
      intro i
      by_cases hi : g i = Measure.dirac (false, 0)
      · exact (hae i hi).mono fun x hx _ => hx
      · exact Filter.Eventually.of_forall fun x hh => absurd hh hi
    filter_upwards [hall] with x hx
    refine Prod.ext rfl (funext fun i => ?_)
    show (if (x.1 i.1).1 = true then x.2 i else x0) = if (x.1 i.1).1 = true then f i (x.2 i) else x0
    by_cases hi : g i.1 = Measure.dirac (false, 0)
    · simp [hx i.1 hi]
    · simp only [f]
      rw [if_neg hi]
  rw [key ν inferInstance, key ν' inferInstance]
  congr 3
  funext i
  rcases h i.1 i.2 with hh | hh
  · rw [show ν i = ν' i from hh]
  · have : f i = fun _ => x0 := by
      funext x
      simp only [f]; rw [if_pos hh]
    rw [this, Measure.map_const, Measure.map_const]
    simp

/-- What has to be known of a call on two datasets: distributions `D`, `D'` of decisions, and `N`, `N'` of the outputs with given
labels, which are indistinguishable. -/
structure GPair (x0 : X) (D D' : K → Measure (Bool × ℝ)) (N N' : K → Λ → Measure X) where
  ge : ℝ
  gd : ℝ
  labels : List Λ
  val : Λ → K → Measure X
  val' : Λ → K → Measure X
  ve : Λ → ℝ
  vd : Λ → ℝ
  prob : ∀ k, IsProbabilityMeasure (D k)
  prob' : ∀ k, IsProbabilityMeasure (D' k)
  num_prob : ∀ k l, IsProbabilityMeasure (N k l)
  num_prob' : ∀ k l, IsProbabilityMeasure (N' k l)
  nodup : labels.Nodup
  val_eq : ∀ k l, N k l = (if l ∈ labels then val l k else Measure.dirac x0) ∨ D k = Measure.dirac (false, 0)
  val_eq' : ∀ k l, N' k l = (if l ∈ labels then val' l k else Measure.dirac x0) ∨ D' k = Measure.dirac (false, 0)
  val_prob : ∀ l k, IsProbabilityMeasure (val l k)
  val_prob' : ∀ l k, IsProbabilityMeasure (val' l k)
  gd_nonneg : 0 ≤ gd
  vd_nonneg : ∀ l ∈ labels, 0 ≤ vd l
  close : Close ge gd D D'
  close' : Close ge gd D' D
  val_close : ∀ l ∈ labels, Close (ve l) (vd l) (val l) (val' l)
  val_close' : ∀ l ∈ labels, Close (ve l) (vd l) (val' l) (val l)

namespace GPair

variable {x0 : X} {D D' : K → Measure (Bool × ℝ)} {N N' : K → Λ → Measure X}

/-- Privacy loss of a call. -/
def e (p : GPair x0 D D' N N') : ℝ := p.ge + (p.labels.map p.ve).sum

def d (p : GPair x0 D D' N N') : ℝ := p.gd + (p.labels.map p.vd).sum

def swap (p : GPair x0 D D' N N') : GPair x0 D' D N' N :=
  { ge := p.ge, gd := p.gd, labels := p.labels, val := p.val', val' := p.val, ve := p.ve, vd := p.vd, prob := p.prob',
    prob' := p.prob, num_prob := p.num_prob', num_prob' := p.num_prob, nodup := p.nodup, val_eq := p.val_eq', val_eq' := p.val_eq,
    val_prob := p.val_prob', val_prob' := p.val_prob, gd_nonneg := p.gd_nonneg, vd_nonneg := p.vd_nonneg, close := p.close',
    close' := p.close, val_close := p.val_close', val_close' := p.val_close }

/-- The outputs, also for absent partitions. -/
noncomputable def number (p : GPair x0 D D' N N') (k : K) (l : Λ) : Measure X :=
  if l ∈ p.labels then p.val l k else Measure.dirac x0

theorem number_prob (p : GPair x0 D D' N N') (k : K) (l : Λ) : IsProbabilityMeasure (p.number k l) := by
  unfold number
  split
  · exact p.val_prob l k
  · infer_instance

end GPair

theorem veiledLaw_prob {x0 : X} {D D' : ℕ → K → Measure (Bool × ℝ)} {N N' : ℕ → K → Λ → Measure X}
    (p : ∀ j, GPair x0 (D j) (D' j) (N j) (N' j)) (U : Finset (ℕ × K)) (S : Finset Λ) :
    IsProbabilityMeasure (veiledLaw x0 U S D N) := by
  have h1 : ∀ u : U, IsProbabilityMeasure (D u.1.1 u.1.2) := fun u => (p u.1.1).prob _
  have h2 : ∀ i : U × S, IsProbabilityMeasure (N i.1.1.1 i.1.1.2 i.2.1) := fun i => (p i.1.1.1).num_prob _ _
  unfold veiledLaw
  exact Measure.isProbabilityMeasure_map (measurable_veil x0).aemeasurable

/-- Composition over all calls; beyond the calls nothing is released. -/
theorem veiled_indist {x0 : X} {D D' : ℕ → K → Measure (Bool × ℝ)} {N N' : ℕ → K → Λ → Measure X} (n : ℕ)
    (p : ∀ j, GPair x0 (D j) (D' j) (N j) (N' j)) (hD : ∀ j k, n ≤ j → D j k = Measure.dirac (false, 0))
    (hD' : ∀ j k, n ≤ j → D' j k = Measure.dirac (false, 0)) (U : Finset (ℕ × K)) (S : Finset Λ) :
    Indist ((List.range n).map fun j => (p j).e).sum ((List.range n).map fun j => (p j).d).sum
      (veiledLaw x0 U S D N) (veiledLaw x0 U S D' N') := by
  have h1 : ∀ u : U, IsProbabilityMeasure (D u.1.1 u.1.2) := by
    intro u; exact (p u.1.1).prob _
  have h1' : ∀ u : U, IsProbabilityMeasure (D' u.1.1 u.1.2) := by
    intro u; exact (p u.1.1).prob' _
  have h2 : ∀ i : U × S, IsProbabilityMeasure (N i.1.1.1 i.1.1.2 i.2.1) := fun i =>
    (p i.1.1.1).num_prob _ _
  have h2' : ∀ i : U × S, IsProbabilityMeasure (N' i.1.1.1 i.1.1.2 i.2.1) := fun i =>
    (p i.1.1.1).swap.num_prob _ _
  have h3 : ∀ i : U × S, IsProbabilityMeasure ((p i.1.1.1).number i.1.1.2 i.2.1) := fun i => (p i.1.1.1).number_prob _ _
  have h3' : ∀ i : U × S, IsProbabilityMeasure ((p i.1.1.1).swap.number i.1.1.2 i.2.1) := fun i =>
    (p i.1.1.1).swap.number_prob _ _
  have e1 : veiledLaw x0 U S D N = ((Measure.pi fun u : U => D u.1.1 u.1.2).prod
      (Measure.pi fun i : U × S => (p i.1.1.1).number i.1.1.2 i.2.1)).map (veil x0) :=
    veil_replace x0 (fun u : U => D u.1.1 u.1.2)
      (fun i : U × S => N i.1.1.1 i.1.1.2 i.2.1)
      (fun i : U × S => (p i.1.1.1).number i.1.1.2 i.2.1) fun u s => (p u.1.1).val_eq u.1.2 s.1
  have e1' : veiledLaw x0 U S D' N' = ((Measure.pi fun u : U => D' u.1.1 u.1.2).prod
      (Measure.pi fun i : U × S => (p i.1.1.1).swap.number i.1.1.2 i.2.1)).map (veil x0) :=
    veil_replace x0 (fun u : U => D' u.1.1 u.1.2)
      (fun i : U × S => N' i.1.1.1 i.1.1.2 i.2.1)
      (fun i : U × S => (p i.1.1.1).swap.number i.1.1.2 i.2.1) fun u s => (p u.1.1).swap.val_eq u.1.2 s.1
  rw [e1, e1']
  -- decisions, grouped by call
  have hg : Indist ((List.range n).map fun j => (p j).ge).sum ((List.range n).map fun j => (p j).gd).sum
      (Measure.pi fun u : U => D u.1.1 u.1.2)
      (Measure.pi fun u : U => D' u.1.1 u.1.2) := by
    refine Indist.groups (List.range n) List.nodup_range (fun j => (p j).ge) (fun j => (p j).gd)
      (fun j _ => (p j).gd_nonneg) (fun u : U => u.1.1) _ _ ?_ ?_
    · intro u hu
      have hj : n ≤ u.1.1 := by simpa using hu
      rw [hD _ _ (by omega), hD' _ _ (by omega)]
    · intro j hj
      have := (p j).close (fun i : {u : U // u.1.1 = j} => i.1.1.2) (by
        rintro ⟨⟨⟨a, b⟩, h⟩, rfl⟩ ⟨⟨⟨a', b'⟩, h'⟩, hh⟩ hab
        simp only at hab hh
        subst hab; subst hh; rfl)
      have f1 : (fun i : {u : U // u.1.1 = j} => D i.1.1.1 i.1.1.2)
          = fun i => D j i.1.1.2 := by
        funext i; rw [i.2]
      have f2 : (fun i : {u : U // u.1.1 = j} => D' i.1.1.1 i.1.1.2)
          = fun i => D' j i.1.1.2 := by
        funext i; rw [i.2]
      rw [f1, f2]
      convert this
  -- numbers, grouped by call and label
  set gs : List (ℕ × Λ) := (List.range n).flatMap fun j => (p j).labels.map fun l => (j, l) with hgs
  have hnd : gs.Nodup := by
    rw [hgs, List.nodup_flatMap]
    constructor
    · intro j _
      exact (p j).nodup.map fun a b hab => by simpa using hab
    · refine List.Pairwise.imp ?_ (List.nodup_range (n := n))
      intro a b hab
      simp only [Function.onFun]
      intro x hx hx'
      obtain ⟨l, -, rfl⟩ := List.mem_map.mp hx
      obtain ⟨l', -, h⟩ := List.mem_map.mp hx'
      exact hab (congrArg Prod.fst h).symm
  have hmem : ∀ j l, (j, l) ∈ gs ↔ j < n ∧ l ∈ (p j).labels := by
    intro j l
    rw [hgs, List.mem_flatMap]
    constructor
    · rintro ⟨i, hi, h⟩
      obtain ⟨m, hm, hh⟩ := List.mem_map.mp h
      simp only [Prod.mk.injEq] at hh
      obtain ⟨rfl, rfl⟩ := hh
      exact ⟨List.mem_range.mp hi, hm⟩
    · rintro ⟨hj, hl⟩
      exact ⟨j, List.mem_range.mpr hj, List.mem_map.mpr ⟨l, hl, rfl⟩⟩
  have hsum : ∀ f : ℕ → Λ → ℝ, (gs.map fun x => f x.1 x.2).sum
      = ((List.range n).map fun j => ((p j).labels.map (f j)).sum).sum := by
    intro f
    rw [hgs, List.map_flatMap, List.flatMap_def, List.sum_flatten, List.map_map]
    congr 1
    apply List.map_congr_left
    intro j _
    simp only [Function.comp_apply, List.map_map]
    rfl
  -- beyond the calls, nothing is released: use the empty pair
  let num : ℕ → K → Λ → Measure X := fun j k l => if j < n then (p j).number k l else Measure.dirac x0
  let num' : ℕ → K → Λ → Measure X := fun j k l => if j < n then (p j).swap.number k l else Measure.dirac x0
  have hp1 : ∀ i : U × S, IsProbabilityMeasure (num i.1.1.1 i.1.1.2 i.2.1) := by
    intro i; simp only [num]; split
    · exact h3 i
    · infer_instance
  have hp1' : ∀ i : U × S, IsProbabilityMeasure (num' i.1.1.1 i.1.1.2 i.2.1) := by
    intro i; simp only [num']; split
    · exact h3' i
    · infer_instance
  have r1 : ((Measure.pi fun u : U => D u.1.1 u.1.2).prod
      (Measure.pi fun i : U × S => (p i.1.1.1).number i.1.1.2 i.2.1)).map (veil x0)
      = ((Measure.pi fun u : U => D u.1.1 u.1.2).prod
      (Measure.pi fun i : U × S => num i.1.1.1 i.1.1.2 i.2.1)).map (veil x0) := by
    refine veil_replace x0 (fun u : U => D u.1.1 u.1.2) _ _ fun u s => ?_
    by_cases hj : u.1.1 < n
    · left; simp only [num]; rw [if_pos hj]
    · right; exact hD _ _ (by omega)
  have r1' : ((Measure.pi fun u : U => D' u.1.1 u.1.2).prod
      (Measure.pi fun i : U × S => (p i.1.1.1).swap.number i.1.1.2 i.2.1)).map (veil x0)
      = ((Measure.pi fun u : U => D' u.1.1 u.1.2).prod
      (Measure.pi fun i : U × S => num' i.1.1.1 i.1.1.2 i.2.1)).map (veil x0) := by
    refine veil_replace x0 (fun u : U => D' u.1.1 u.1.2) _ _ fun u s => ?_
    by_cases hj : u.1.1 < n
    · left; simp only [num']; rw [if_pos hj]
    · right; exact hD' _ _ (by omega)
  rw [r1, r1']
  have hv : Indist ((List.range n).map fun j => ((p j).labels.map (p j).ve).sum).sum
      ((List.range n).map fun j => ((p j).labels.map (p j).vd).sum).sum
      (Measure.pi fun i : U × S => num i.1.1.1 i.1.1.2 i.2.1) (Measure.pi fun i : U × S => num' i.1.1.1 i.1.1.2 i.2.1) := by
    rw [← hsum fun j => (p j).ve, ← hsum fun j => (p j).vd]
    refine Indist.groups gs hnd (fun x => (p x.1).ve x.2) (fun x => (p x.1).vd x.2) (fun x hx => (p x.1).vd_nonneg _ ((hmem x.1 x.2).mp hx).2)
      (fun i : U × S => (i.1.1.1, i.2.1)) _ _ ?_ ?_
    · intro i hi
      rw [hmem] at hi
      simp only [num, num']
      by_cases hj : i.1.1.1 < n
      · rw [if_pos hj, if_pos hj]
        have hl : i.2.1 ∉ (p i.1.1.1).labels := fun h => hi ⟨hj, h⟩
        unfold GPair.number
        rw [if_neg hl, if_neg (show i.2.1 ∉ (p i.1.1.1).swap.labels from hl)]
      · rw [if_neg hj, if_neg hj]
    · rintro ⟨j, l⟩ hx
      obtain ⟨hj, hl⟩ := (hmem j l).mp hx
      have := (p j).val_close l hl (fun i : {i : U × S // (i.1.1.1, i.2.1) = (j, l)} => i.1.1.1.2) (by
        rintro ⟨⟨⟨⟨a, b⟩, h⟩, ⟨s, hs⟩⟩, e⟩ ⟨⟨⟨⟨a', b'⟩, h'⟩, ⟨s', hs'⟩⟩, e'⟩ hab
        simp only [Prod.mk.injEq] at hab e e'
        obtain ⟨rfl, rfl⟩ := e
        obtain ⟨rfl, rfl⟩ := e'
        subst hab; rfl)
      have f1 : (fun i : {i : U × S // (i.1.1.1, i.2.1) = (j, l)} => num i.1.1.1.1 i.1.1.1.2 i.1.2.1)
          = fun i => (p j).val l i.1.1.1.2 := by
        funext i
        have := i.2
        simp only [Prod.mk.injEq] at this
        rw [this.1, this.2]
        simp only [num, GPair.number]
        rw [if_pos hj, if_pos hl]
      have f2 : (fun i : {i : U × S // (i.1.1.1, i.2.1) = (j, l)} => num' i.1.1.1.1 i.1.1.1.2 i.1.2.1)
          = fun i => (p j).val' l i.1.1.1.2 := by
        funext i
        have := i.2
        simp only [Prod.mk.injEq] at this
        rw [this.1, this.2]
        simp only [num', GPair.number]
        rw [if_pos hj, if_pos (show l ∈ (p j).swap.labels from hl)]
        rfl
      rw [f1, f2]
      convert this
  have hfin := ((hg.prod hv ?_ ?_).map (measurable_veil x0))
  · refine hfin.mono (le_of_eq ?_) (le_of_eq ?_)
    · rw [← List.sum_map_add]; rfl
    · rw [← List.sum_map_add]; rfl
  · exact List.sum_nonneg fun x hx => by
      obtain ⟨j, -, rfl⟩ := List.mem_map.mp hx
      exact (p j).gd_nonneg
  · exact List.sum_nonneg fun x hx => by
      obtain ⟨j, -, rfl⟩ := List.mem_map.mp hx
      exact List.sum_nonneg fun y hy => by
        obtain ⟨l, hl, rfl⟩ := List.mem_map.mp hy
        exact (p j).vd_nonneg l hl

end PDP.EndToEnd
