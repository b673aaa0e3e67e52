import Verif.EndToEnd.Percentiles
import Verif.EndToEnd.CustomProps

/-! # One `aggregate` call with percentiles on neighbouring datasets -/

set_option linter.unusedSectionVars false

namespace PDP.EndToEnd

open PDP PDP.Engine MeasureTheory
open PDP.Engine.Mechanism (computed)
open PDP.Approx (Indist)

variable {R P K V A O : Type} [DecidableEq P] [DecidableEq K] [MeasurableSpace O]

/-! ### Contents of the trees -/

/-- Budgets and percentiles of the quantile combiners. -/
def qParts : List Part → List (ℕ × List ℚ)
  | [] => []
  | .quantile i ps :: parts => (i, ps) :: qParts parts
  | _ :: parts => qParts parts

theorem qParts_specs (parts : List Part) : (qParts parts).map Prod.fst = qSpecs parts := by
  induction parts with
  | nil => rfl
  | cons part parts ih =>
    cases part <;> simp only [qParts, List.map_cons, ih, qSpecs, List.flatMap_cons] <;> rfl

theorem mem_qParts {parts : List Part} {i : ℕ} {ps : List ℚ} : (i, ps) ∈ qParts parts ↔ Part.quantile i ps ∈ parts := by
  induction parts with
  | nil => simp [qParts]
  | cons part parts ih => cases part <;> simp [qParts, ih]

/-- Contents of all trees of an accumulator. -/
noncomputable def contents (sigma : ℝ → ℝ → ℝ → ℝ) (p : Params) :
    (parts : List Part) → Combiner.AccTuple (combinersOf sigma p parts) → List (Multiset ℚ)
  | [], _ => []
  | .quantile _ _ :: parts, a => (show Multiset ℚ from a.1) :: contents sigma p parts a.2
  | _ :: parts, a => contents sigma p parts a.2

theorem foldl_entries (vs : List ℚ) (m : Multiset ℚ) : vs.foldl (fun t v => t + {v}) m = m + (vs : Multiset ℚ) := by
  induction vs generalizing m with
  | nil => simp
  | cons v vs ih =>
    rw [List.foldl_cons, ih, add_assoc]
    rfl

theorem contents_create (sigma : ℝ → ℝ → ℝ → ℝ) (p : Params) (parts : List Part) (vs : List ℚ) :
    contents sigma p parts (Combiner.createTuple (combinersOf sigma p parts) vs) = (qParts parts).map fun _ => (vs : Multiset ℚ) := by
  induction parts with
  | nil => rfl
  | cons part parts ih =>
    cases part <;> try exact ih
    case quantile i ps =>
      have h : (vs.foldl (fun t v => t + {v}) (0 : Multiset ℚ)) = (vs : Multiset ℚ) := by rw [foldl_entries, zero_add]
      exact congrArg₂ List.cons h ih

theorem contents_merge (sigma : ℝ → ℝ → ℝ → ℝ) (p : Params) (parts : List Part)
    (a b : Combiner.AccTuple (combinersOf sigma p parts)) {m m' : Multiset ℚ}
    (ha : contents sigma p parts a = (qParts parts).map fun _ => m) (hb : contents sigma p parts b = (qParts parts).map fun _ => m') :
    contents sigma p parts (Combiner.mergeTuple (combinersOf sigma p parts) a b) = (qParts parts).map fun _ => m + m' := by
  induction parts with
  | nil => rfl
  | cons part parts ih =>
    cases part <;> try exact ih a.2 b.2 ha hb
    case quantile i ps =>
      have ha' : (show Multiset ℚ from a.1) :: contents sigma p parts a.2 = m :: (qParts parts).map fun _ => m := ha
      have hb' : (show Multiset ℚ from b.1) :: contents sigma p parts b.2 = m' :: (qParts parts).map fun _ => m' := hb
      obtain ⟨a1, a2⟩ := List.cons.inj ha'
      obtain ⟨b1, b2⟩ := List.cons.inj hb'
      have h : (0 + (show Multiset ℚ from a.1)) + (show Multiset ℚ from b.1) = m + m' := by rw [a1, b1, zero_add]
      exact congrArg₂ List.cons h (ih a.2 b.2 a2 b2)

/-- All values in several lists. -/
def allValues (l : List (List ℚ)) : Multiset ℚ := (l.map fun x : List ℚ => (x : Multiset ℚ)).sum

theorem allValues_append (l l' : List (List ℚ)) : allValues (l ++ l') = allValues l + allValues l' := by
  simp [allValues]

theorem allValues_perm {l l' : List (List ℚ)} (h : l.Perm l') : allValues l = allValues l' := by
  unfold allValues
  exact List.Perm.sum_eq (M := Multiset ℚ) (h.map _)

theorem allValues_card (l : List (List ℚ)) : (allValues l).card = (l.map List.length).sum := by
  induction l with
  | nil => rfl
  | cons x l ih =>
    have : allValues (x :: l) = (x : Multiset ℚ) + allValues l := by simp [allValues]
    rw [this, Multiset.card_add, ih]
    simp

theorem contents_tree (sigma : ℝ → ℝ → ℝ → ℝ) (p : Params) (parts : List Part)
    (t : MergeTree (Combiner.compound (combinersOf sigma p parts)).Acc) : ∀ xs : List (List ℚ),
      t.leaves = xs.map (Combiner.compound (combinersOf sigma p parts)).create →
      contents sigma p parts (t.eval (Combiner.compound (combinersOf sigma p parts)).merge).2
        = (qParts parts).map fun _ => allValues xs := by
  induction t with
  | leaf a =>
    intro xs h
    simp only [MergeTree.leaves] at h
    obtain ⟨x, l, rfl, rfl, h2⟩ := List.map_eq_cons_iff.mp h.symm
    have : l = [] := by simpa using h2
    subst this
    refine (contents_create sigma p parts x).trans ?_
    simp [allValues]
  | node l r ihl ihr =>
    intro xs h
    simp only [MergeTree.leaves] at h
    obtain ⟨x1, x2, rfl, h1, h2⟩ := List.map_eq_append_iff.mp h.symm
    rw [allValues_append]
    exact contents_merge sigma p parts _ _ (ihl x1 h1.symm) (ihr x2 h2.symm)

theorem contents_combined (sigma : ℝ → ℝ → ℝ → ℝ) (p : Params) (parts : List Part) {l : List (K × List ℚ)}
    {out : List (K × (Combiner.compound (combinersOf sigma p parts)).Acc)}
    (hC : IsCombine (Combiner.compound (combinersOf sigma p parts)).merge
      (l.map fun e => (e.1, (Combiner.compound (combinersOf sigma p parts)).create e.2)) out) :
    ∀ e ∈ out, contents sigma p parts e.2.2 = (qParts parts).map fun _ => allValues (valuesOf e.1 l) := by
  intro e he
  obtain ⟨t, h1, h2⟩ := hC.values e he
  rw [valuesOf_map_values] at h1
  obtain ⟨ys, h3, h4⟩ := Histogram.perm_map_exists _ h1
  rw [h2, contents_tree sigma p parts t ys h4, allValues_perm h3]

/-! ### Results -/

/-- What is given to PyDP. -/
noncomputable def argsOf (p : Params) (ε δ : ℕ → ℝ) (i : ℕ) (ps : List ℚ) : TreeArgs :=
  ⟨p.minValue.getD 0, p.maxValue.getD 0, ε i, δ i, p.maxPartitions.getD 0, p.maxPerPartition.getD 0, ps.map fun x => x / 100,
    p.noiseKind⟩

theorem evalTrees_eq (tree : TreeLibrary) (fmt : ℚ → String) (sigma : ℝ → ℝ → ℝ → ℝ) (s : Specs) (p : Params) (ε δ : ℕ → ℝ)
    (parts : List Part) (hq : ∀ i ps, Part.quantile i ps ∈ parts → ∀ m, quantileOf tree s p i ps m = .ok (tree (argsOf p ε δ i ps) m))
    (a : Combiner.AccTuple (combinersOf sigma p parts)) {m : Multiset ℚ} (ha : contents sigma p parts a = (qParts parts).map fun _ => m) :
    evalTrees tree fmt sigma s p parts a = .ok ((qParts parts).map fun q =>
      ⟨q.1, q.2.map (fun x => "percentile_" ++ fmt x), tree (argsOf p ε δ q.1 q.2) m⟩) := by
  induction parts with
  | nil => rfl
  | cons part parts ih =>
    cases part <;> try exact ih (fun i ps h => hq i ps (by simp [h])) a.2 ha
    case quantile i ps =>
      have ha' : (show Multiset ℚ from a.1) :: contents sigma p parts a.2 = m :: (qParts parts).map fun _ => m := ha
      obtain ⟨a1, a2⟩ := List.cons.inj ha'
      have h1 : quantileOf tree s p i ps (show Multiset ℚ from a.1) = .ok (tree (argsOf p ε δ i ps) m) := by
        rw [hq i ps (by simp), a1]
      simp only [evalTrees]
      rw [h1, ih (fun i ps h => hq i ps (by simp [h])) a.2 a2]
      rfl

theorem quantileOf_ok (tree : TreeLibrary) {s : Specs} {p : Params} {ε δ : ℕ → ℝ} {i : ℕ} {m : Engine.Mechanism} (hs : SpecOk s ε δ i m)
    {lo hi : ℚ} (h1 : p.minValue = some lo) (h2 : p.maxValue = some hi) {l0 linf : ℕ} (h3 : p.maxPartitions = some l0)
    (h4 : p.maxPerPartition = some linf) (ps : List ℚ) (c : Multiset ℚ) :
    quantileOf tree s p i ps c = .ok (tree (argsOf p ε δ i ps) c) := by
  unfold quantileOf argsOf
  rw [h1, h2, h3, h4, hs.eq]
  rfl

/-! ### Numbers and percentiles together -/

theorem measurable_constSeq : Measurable fun (x : ℝ) (_ : ℕ) => x := measurable_pi_iff.mpr fun _ => measurable_id

theorem close_constSeq {e d : ℝ} {μ ν : K → Measure ℝ} [∀ k, IsProbabilityMeasure (μ k)] [∀ k, IsProbabilityMeasure (ν k)]
    (h : Close e d μ ν) : Close e d (fun k => (μ k).map fun x (_ : ℕ) => x) (fun k => (ν k).map fun x (_ : ℕ) => x) := by
  intro ι _ f hf
  have key : ∀ ρ : K → Measure ℝ, (∀ k, IsProbabilityMeasure (ρ k)) →
      Measure.pi (fun i => (ρ (f i)).map fun x (_ : ℕ) => x) = (Measure.pi fun i => ρ (f i)).map fun x i (_ : ℕ) => x i := by
    intro ρ hρ
    rw [← Measure.pi_map_pi fun i => measurable_constSeq.aemeasurable]
  rw [key μ inferInstance, key ν inferInstance]
  refine (h f hf).map ?_
  exact measurable_pi_iff.mpr fun i => measurable_pi_iff.mpr fun _ => measurable_pi_apply i

theorem find_base (L : List (QCandidate K)) (k : K) :
    ((L.map QCandidate.base).find? fun c => c.key = k) = (L.find? fun c => c.base.key = k).map QCandidate.base := by
  rw [List.find?_map]; rfl

/-- The labels of numbers and percentiles. -/
def jointLabels (l : List (ℕ × ℕ)) (is : List ℕ) : List QLabel := l.map QLabel.number ++ is.map QLabel.quantiles

theorem inl_jointLabels {l : List (ℕ × ℕ)} {is : List ℕ} {x : ℕ × ℕ} : QLabel.number x ∈ jointLabels l is ↔ x ∈ l := by
  simp [jointLabels]

theorem inr_jointLabels {l : List (ℕ × ℕ)} {is : List ℕ} {i : ℕ} : QLabel.quantiles i ∈ jointLabels l is ↔ i ∈ is := by
  simp [jointLabels]

theorem joint_pair {lib : Library} {C C' : List (QCandidate K)} (q : Pair lib (C.map QCandidate.base) (C'.map QCandidate.base))
    (is : List ℕ) (his : is.Nodup) (val val' : ℕ → K → Measure (ℕ → ℝ)) (ε δ : ℕ → ℝ) (hδ : ∀ i ∈ is, 0 ≤ δ i)
    (hp : ∀ i k, IsProbabilityMeasure (val i k)) (hp' : ∀ i k, IsProbabilityMeasure (val' i k))
    (hv : ∀ c ∈ C, ∀ i, c.law i = if i ∈ is then val i c.base.key else Measure.dirac 0)
    (hv' : ∀ c ∈ C', ∀ i, c.law i = if i ∈ is then val' i c.base.key else Measure.dirac 0)
    (hc : ∀ i ∈ is, Close (ε i) (δ i) (val i) (val' i)) (hc' : ∀ i ∈ is, Close (ε i) (δ i) (val' i) (val i)) :
    ∃ g : GPair 0 (qDecision lib C) (qDecision lib C') (qOutput C) (qOutput C'),
      g.e = q.e + (is.map ε).sum ∧ g.d = q.d + (is.map δ).sum := by
  have hdec : ∀ (C : List (QCandidate K)) (k : K), (C.find? fun c => c.base.key = k) = none →
      qDecision lib C k = Measure.dirac (false, 0) := by
    intro C k h
    unfold qDecision decisionLaw
    rw [find_base, h]; rfl
  have hval : ∀ (C : List (QCandidate K)) (nv : ℕ × ℕ → K → Measure ℝ) (v : ℕ → K → Measure (ℕ → ℝ)),
      (∀ k l, ((C.map QCandidate.base).find? fun x => x.key = k).isSome →
        numberLaw (C.map QCandidate.base) k l = if l ∈ q.labels then nv l k else Measure.dirac 0) →
      (∀ c ∈ C, ∀ i, c.law i = if i ∈ is then v i c.base.key else Measure.dirac 0) → ∀ (k : K) (l : QLabel),
      qOutput C k l = (if l ∈ jointLabels q.labels is then
        (match l with | .number l => (nv l k).map fun x (_ : ℕ) => x | .quantiles i => v i k) else Measure.dirac 0) ∨
      qDecision lib C k = Measure.dirac (false, 0) := by
    intro C nv v h1 h2 k l
    cases hf : C.find? fun c => c.base.key = k with
    | none => exact Or.inr (hdec C k hf)
    | some c =>
      left
      have hk : c.base.key = k := by simpa using List.find?_some hf
      cases l with
      | number l =>
        simp only [qOutput]
        rw [h1 k l (by rw [find_base, hf]; rfl)]
        by_cases hl : l ∈ q.labels
        · rw [if_pos hl, if_pos (inl_jointLabels.mpr hl)]
        · rw [if_neg hl, if_neg (mt inl_jointLabels.mp hl), Measure.map_dirac' measurable_constSeq]
          rfl
      | quantiles i =>
        simp only [qOutput, hf]
        rw [h2 c (List.mem_of_find?_eq_some hf) i, hk]
        by_cases hi : i ∈ is
        · rw [if_pos hi, if_pos (inr_jointLabels.mpr hi)]
        · rw [if_neg hi, if_neg (mt inr_jointLabels.mp hi)]
  have hprob : ∀ (C : List (QCandidate K)) (nv : ℕ × ℕ → K → Measure ℝ) (v : ℕ → K → Measure (ℕ → ℝ)),
      (∀ l k, IsProbabilityMeasure (nv l k)) → (∀ i k, IsProbabilityMeasure (v i k)) →
      (∀ k l, ((C.map QCandidate.base).find? fun x => x.key = k).isSome →
        numberLaw (C.map QCandidate.base) k l = if l ∈ q.labels then nv l k else Measure.dirac 0) →
      (∀ c ∈ C, ∀ i, c.law i = if i ∈ is then v i c.base.key else Measure.dirac 0) → ∀ k l, IsProbabilityMeasure (qOutput C k l) := by
    intro C nv v p1 p2 h1 h2 k l
    cases l with
    | number l =>
      have : IsProbabilityMeasure (numberLaw (C.map QCandidate.base) k l) := by
        cases hf : (C.map QCandidate.base).find? fun c => c.key = k with
        | none => unfold numberLaw; rw [hf]; dsimp only; infer_instance
        | some c =>
          rw [h1 k l (by rw [hf]; rfl)]
          split
          · exact p1 l k
          · infer_instance
      exact Measure.isProbabilityMeasure_map measurable_constSeq.aemeasurable
    | quantiles i =>
      simp only [qOutput]
      cases hf : C.find? fun c => c.base.key = k with
      | none => dsimp only; infer_instance
      | some c =>
        dsimp only
        rw [h2 c (List.mem_of_find?_eq_some hf) i]
        split
        · exact p2 i _
        · infer_instance
  have hmp : ∀ (μ : Measure ℝ), IsProbabilityMeasure μ → IsProbabilityMeasure (μ.map fun x (_ : ℕ) => x) := fun μ hμ =>
    Measure.isProbabilityMeasure_map measurable_constSeq.aemeasurable
  have e1 : qDecision lib C = q.gate := funext q.gate_eq
  have e2 : qDecision lib C' = q.gate' := funext q.gate_eq'
  have q1 := q.val_prob
  have q2 := q.val_prob'
  have mem : ∀ l : QLabel, l ∈ jointLabels q.labels is →
      (∃ x ∈ q.labels, l = .number x) ∨ ∃ i ∈ is, l = .quantiles i := by
    intro l hl
    rcases List.mem_append.mp hl with h | h
    · obtain ⟨x, hx, rfl⟩ := List.mem_map.mp h
      exact Or.inl ⟨x, hx, rfl⟩
    · obtain ⟨i, hi, rfl⟩ := List.mem_map.mp h
      exact Or.inr ⟨i, hi, rfl⟩
  refine ⟨{ ge := q.ge, gd := q.gd, labels := jointLabels q.labels is,
            val := fun l k => match l with | .number l => (q.val l k).map fun x (_ : ℕ) => x | .quantiles i => val i k,
            val' := fun l k => match l with | .number l => (q.val' l k).map fun x (_ : ℕ) => x | .quantiles i => val' i k,
            ve := fun l => match l with | .number l => q.ve l | .quantiles i => ε i,
            vd := fun l => match l with | .number l => q.vd l | .quantiles i => δ i,
            prob := fun k => by rw [e1]; exact q.prob k, prob' := fun k => by rw [e2]; exact q.prob' k,
            num_prob := hprob C q.val val q.val_prob hp q.val_eq hv, num_prob' := hprob C' q.val' val' q.val_prob' hp' q.val_eq' hv',
            nodup := ?_, val_eq := hval C q.val val q.val_eq hv, val_eq' := hval C' q.val' val' q.val_eq' hv',
            val_prob := ?_, val_prob' := ?_, gd_nonneg := q.gd_nonneg, vd_nonneg := ?_, close := by rw [e1, e2]; exact q.close,
            close' := by rw [e1, e2]; exact q.close', val_close := ?_, val_close' := ?_ }, ?_, ?_⟩
  · unfold jointLabels
    rw [List.nodup_append]
    refine ⟨q.nodup.map (fun a b h => by injection h), his.map (fun a b h => by injection h), ?_⟩
    intro a ha b hb hab
    obtain ⟨x, -, rfl⟩ := List.mem_map.mp ha
    obtain ⟨y, -, rfl⟩ := List.mem_map.mp hb
    cases hab
  · intro l k
    cases l with
    | number l => exact hmp _ (q.val_prob l k)
    | quantiles i => exact hp i k
  · intro l k
    cases l with
    | number l => exact hmp _ (q.val_prob' l k)
    | quantiles i => exact hp' i k
  · intro l hl
    rcases mem l hl with ⟨x, hx, rfl⟩ | ⟨i, hi, rfl⟩
    · exact q.vd_nonneg x
    · exact hδ i hi
  · intro l hl
    rcases mem l hl with ⟨x, hx, rfl⟩ | ⟨i, hi, rfl⟩
    · have := q.val_prob x; have := q.val_prob' x
      intro ι _ f hf
      exact close_constSeq (e := q.ve x) (d := q.vd x) (μ := q.val x) (ν := q.val' x) (q.val_close x hx) f hf
    · exact hc i hi
  · intro l hl
    rcases mem l hl with ⟨x, hx, rfl⟩ | ⟨i, hi, rfl⟩
    · have := q.val_prob x; have := q.val_prob' x
      intro ι _ f hf
      exact close_constSeq (e := q.ve x) (d := q.vd x) (μ := q.val' x) (ν := q.val x) (q.val_close' x hx) f hf
    · exact hc' i hi
  · simp only [jointLabels, GPair.e, Pair.e, List.map_append, List.sum_append, List.map_map, Function.comp_def, add_assoc]
  · simp only [jointLabels, GPair.d, Pair.d, List.map_append, List.sum_append, List.map_map, Function.comp_def, add_assoc]

/-! ### Closeness of the trees -/

theorem sampling_quantile (sigma : ℝ → ℝ → ℝ → ℝ) (p : Params) {parts : List Part} {i : ℕ} {ps : List ℚ}
    (h : Part.quantile i ps ∈ parts) : (Combiner.compound (combinersOf sigma p parts)).sampling = true := by
  show (combinersOf sigma p parts).any (fun c => c.sampling) = true
  rw [List.any_eq_true]
  exact ⟨_, List.mem_map.mpr ⟨_, h, rfl⟩, rfl⟩

theorem tree_close {tree : TreeLibrary} (ht : TreeContract tree) (a : TreeArgs) (h1 : a.lo < a.hi) (h2 : 0 < a.eps) (h3 : 0 ≤ a.delta)
    (h4 : a.kind = .gaussian → 0 < a.delta) (h5 : 1 ≤ a.l0) (h6 : 1 ≤ a.linf) {X Y : K → List (List ℚ)} {E : List (K × List ℚ)}
    (hXY : ∀ k, (X k).Perm (valuesOf k E ++ Y k)) (hl0 : (E.map Prod.fst).dedup.length ≤ a.l0)
    (hlinf : ∀ k, ((valuesOf k E).map List.length).sum ≤ a.linf) :
    Close a.eps a.delta (fun k => tree a (allValues (X k))) (fun k => tree a (allValues (Y k))) ∧
    Close a.eps a.delta (fun k => tree a (allValues (Y k))) (fun k => tree a (allValues (X k))) := by
  have key : ∀ {ι : Type} [Fintype ι] (f : ι → K), Function.Injective f →
      Indist a.eps a.delta (Measure.pi fun i => tree a (allValues (X (f i)))) (Measure.pi fun i => tree a (allValues (Y (f i)))) ∧
      Indist a.eps a.delta (Measure.pi fun i => tree a (allValues (Y (f i)))) (Measure.pi fun i => tree a (allValues (X (f i)))) := by
    intro ι _ f hf
    refine ht.dp a h1 h2 h3 h4 h5 h6 _ _ (fun i => allValues (valuesOf (f i) E)) (fun i => ?_) (fun i => ?_) ?_
    · rw [allValues_perm (hXY (f i)), allValues_append]
    · rw [allValues_card]; exact hlinf (f i)
    · refine le_trans ?_ hl0
      have hsub : ((Finset.univ.filter fun i => allValues (valuesOf (f i) E) ≠ 0).image f) ⊆ (E.map Prod.fst).toFinset := by
        intro k hk
        obtain ⟨i, hi, rfl⟩ := Finset.mem_image.mp hk
        have hi := (Finset.mem_filter.mp hi).2
        by_contra hn
        apply hi
        have : valuesOf (f i) E = [] := by
          unfold valuesOf
          rw [List.map_eq_nil_iff, List.filter_eq_nil_iff]
          intro e he hek
          apply hn
          rw [List.mem_toFinset, List.mem_map]
          exact ⟨e, he, by simpa using hek⟩
        rw [this]; rfl
      have := Finset.card_le_card hsub
      rw [Finset.card_image_of_injective _ hf, List.card_toFinset] at this
      exact this
  exact ⟨fun f hf => (key f hf).1, fun f hf => (key f hf).2⟩

end PDP.EndToEnd
