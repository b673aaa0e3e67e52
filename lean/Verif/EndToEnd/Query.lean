import Verif.EndToEnd.Lemmas
import Mathlib.Algebra.Order.BigOperators.Group.List
import Mathlib.Algebra.BigOperators.GroupWithZero.Finset

/-! # One `aggregate` call: the privacy loss is at most the sum of its budgets -/

set_option linter.unusedSectionVars false
set_option linter.unusedVariables false
set_option linter.unusedSimpArgs false

namespace PDP.EndToEnd

open PDP PDP.Engine
open PDP.Engine.Mechanism (Additive createAdditive computed pyLaplace laplaceDensity C58_laplace_privacy_loss)
open PDP.Engine.AddNoise (specOf)
open PDP.Budget (State Op MechType)

variable {R P K : Type} [DecidableEq P] [DecidableEq K]

/-! ### Which combiners are created -/

theorem parts_ok {fmt : ℚ → String} {p : Params} {rs rs' : List Request} {parts : List Part} (hs : Supported p)
    (h : createCompound fmt p rs = (.ok parts, rs')) : ∀ part ∈ parts, PartOk p part := by
  have hv : vectorPart p (privacyIdPart p (scalarParts p rs).2).2 = ([], (privacyIdPart p (scalarParts p rs).2).2) := by
    unfold vectorPart
    rw [if_neg]
    intro h
    have := hs.metrics _ h
    simp at this
  have hq : ∀ r, quantilePart p r = ([], r) := by
    intro r
    unfold quantilePart
    have : p.metrics.filterMap Metric.percentile? = [] := by
      rw [List.filterMap_eq_nil_iff]
      intro m hm
      rcases hs.metrics m hm with rfl | rfl | rfl | rfl | rfl <;> rfl
    rw [this]; simp
  unfold createCompound at h
  simp only [hv, hq, List.append_nil] at h
  split at h
  · simp only [Prod.mk.injEq, Except.ok.injEq] at h
    obtain ⟨rfl, -⟩ := h
    intro part hp
    rcases List.mem_append.mp hp with hp | hp
    · unfold scalarParts at hp
      by_cases h1 : Metric.variance ∈ p.metrics
      · rw [if_pos h1] at hp
        simp only [requestBudget, List.mem_singleton] at hp
        subst hp; exact hs.variance h1
      · rw [if_neg h1] at hp
        by_cases h2 : Metric.mean ∈ p.metrics
        · rw [if_pos h2] at hp
          simp only [requestBudget, List.mem_singleton] at hp
          subst hp; exact hs.mean h2 h1
        · rw [if_neg h2] at hp
          by_cases h3 : Metric.count ∈ p.metrics <;> by_cases h4 : Metric.sum ∈ p.metrics <;>
            simp [h3, h4, requestBudget] at hp
          · rcases hp with rfl | rfl
            · trivial
            · exact hs.sum h4 h2 h1
          · subst hp; trivial
          · subst hp; exact hs.sum h4 h2 h1
    · unfold privacyIdPart at hp
      rw [hs.noThresholding] at hp
      by_cases h1 : Metric.privacyIdCount ∈ p.metrics
      · rw [if_pos h1] at hp
        simp only [requestBudget, Bool.false_eq_true, if_false, List.mem_singleton] at hp
        subst hp; exact hs.ids h1
      · rw [if_neg h1] at hp; simp at hp
  · simp at h

/-! ### Numbers and budgets -/

/-- Budgets, positions of the numbers of a supported combiner. -/
theorem numbers_specs (sigma : ℝ → ℝ → ℝ → ℝ) (p : Params) (part : Part) (h : PartOk p part) :
    ((view sigma p part).numbers.map fun n => (n.spec, n.comp)) =
      match part with
      | .variance s _ => [(s, 0), (s, 1), (s, 2)]
      | part => part.specs.map fun s => (s, 0) := by
  cases part with
  | count s => rfl
  | privacyIdCount s => rfl
  | sum s =>
    generalize hv : view sigma p (.sum s) = v
    simp only [view] at hv
    split at hv <;> subst hv <;> rfl
  | mean a b ns => rfl
  | variance s ns =>
    obtain ⟨⟨lo, hi, e1, e2, e3, e4⟩, e5⟩ := h
    have hne : (squaresInterval lo hi).1 ≠ (squaresInterval lo hi).2 := by
      rcases squares_ne e3 with h | h
      · exact h.ne
      · exact h.ne'
    have g1 : p.minValue.getD 0 = lo := by rw [e1]; rfl
    have g2 : p.maxValue.getD 0 = hi := by rw [e2]; rfl
    simp only [view, g1, g2, if_neg e3.ne, if_neg hne]
    rfl
  | thresholding s => exact h.elim
  | vectorSum s => exact h.elim
  | quantile s ps => exact h.elim

theorem numbers_sum (sigma : ℝ → ℝ → ℝ → ℝ) (p : Params) (part : Part) (h : PartOk p part) (ε : ℕ → ℝ) :
    ((view sigma p part).numbers.map fun n => share part * ε n.spec).sum = (part.specs.map ε).sum := by
  have h1 : ((view sigma p part).numbers.map fun n => share part * ε n.spec)
      = ((view sigma p part).numbers.map fun n => (n.spec, n.comp)).map fun x => share part * ε x.1 := by
    rw [List.map_map]; rfl
  rw [h1, numbers_specs sigma p part h]
  cases part with
  | variance s ns => simp [share, Part.specs]; ring
  | thresholding s => exact h.elim
  | vectorSum s => exact h.elim
  | quantile s ps => exact h.elim
  | _ => simp [share, Part.specs]

theorem flat_sum (sigma : ℝ → ℝ → ℝ → ℝ) (p : Params) (parts : List Part) (h : ∀ part ∈ parts, PartOk p part)
    (ε : ℕ → ℝ) : ((flat sigma p parts).map fun x => x.1 * ε x.2.spec).sum = ((parts.flatMap Part.specs).map ε).sum := by
  induction parts with
  | nil => rfl
  | cons part parts ih =>
    simp only [flat, List.map_append, List.map_map, List.sum_append, List.flatMap_cons]
    rw [← numbers_sum sigma p part (h part (by simp)) ε, ← ih fun x hx => h x (by simp [hx])]
    rfl

theorem flat_labels (sigma : ℝ → ℝ → ℝ → ℝ) (p : Params) (parts : List Part) (h : ∀ part ∈ parts, PartOk p part)
    (hn : (parts.flatMap Part.specs).Nodup) :
    ((flat sigma p parts).map fun x => (x.2.spec, x.2.comp)).Nodup ∧
      ∀ x ∈ flat sigma p parts, x.2.spec ∈ parts.flatMap Part.specs := by
  induction parts with
  | nil => simp [flat]
  | cons part parts ih =>
    rw [List.flatMap_cons, List.nodup_append] at hn
    obtain ⟨n1, n2, n3⟩ := hn
    obtain ⟨i1, i2⟩ := ih (fun x hx => h x (by simp [hx])) n2
    have hp := numbers_specs sigma p part (h part (by simp))
    have hspec : ∀ n ∈ (view sigma p part).numbers, n.spec ∈ part.specs := by
      intro n hn
      have : (n.spec, n.comp) ∈ (view sigma p part).numbers.map fun n => (n.spec, n.comp) :=
        List.mem_map_of_mem hn
      rw [hp] at this
      cases part with
      | variance s ns => simp at this; simp [Part.specs]; omega
      | _ => simp at this; exact this.1
    constructor
    · simp only [flat, List.map_append, List.map_map]
      rw [List.nodup_append]
      refine ⟨?_, i1, ?_⟩
      · show ((view sigma p part).numbers.map fun n => (n.spec, n.comp)).Nodup
        rw [hp]
        cases part with
        | variance s ns => simp
        | _ => exact n1.map fun a b hab => by simpa using hab
      · intro a ha b hb hab
        obtain ⟨n, hn, rfl⟩ := List.mem_map.mp ha
        obtain ⟨x, hx, rfl⟩ := List.mem_map.mp hb
        exact n3 _ (hspec n hn) _ (i2 x hx) (congrArg Prod.fst hab)
    · intro x hx
      simp only [flat, List.mem_append, List.mem_map] at hx
      rw [List.flatMap_cons, List.mem_append]
      rcases hx with ⟨n, hn, rfl⟩ | ⟨y, hy, rfl⟩
      · exact Or.inl (hspec n hn)
      · exact Or.inr (i2 y hy)

theorem numbers_additive (sigma : ℝ → ℝ → ℝ → ℝ) (p : Params) (part : Part) :
    ∀ n ∈ (view sigma p part).numbers, ∀ a b, n.read ((view sigma p part).comb.merge a b) = n.read a + n.read b := by
  generalize hv : view sigma p part = v
  cases part with
  | count s =>
    simp only [view] at hv
    subst hv; intro n hn a b
    simp only [List.mem_singleton] at hn
    subst hn; exact Nat.cast_add (R := ℚ) a b
  | privacyIdCount s =>
    simp only [view] at hv
    subst hv; intro n hn a b
    simp only [List.mem_singleton] at hn
    subst hn; exact Nat.cast_add (R := ℚ) a b
  | sum s =>
    simp only [view] at hv
    split at hv
    all_goals
      subst hv; intro n hn a b
      simp only [List.mem_singleton] at hn
      subst hn; rfl
  | mean c s ns =>
    simp only [view] at hv
    subst hv; intro n hn a b
    simp only [List.mem_cons, List.not_mem_nil, or_false] at hn
    rcases hn with rfl | rfl
    · exact Nat.cast_add (R := ℚ) a.1 b.1
    · rfl
  | variance s ns =>
    simp only [view] at hv
    subst hv; intro n hn a b
    simp only [List.mem_cons, List.mem_append] at hn
    rcases hn with rfl | hn | hn
    · exact Nat.cast_add (R := ℚ) a.1 b.1
    · split at hn
      · simp at hn
      · simp only [List.mem_singleton] at hn; subst hn; rfl
    · split at hn
      · simp at hn
      · simp only [List.mem_singleton] at hn; subst hn; rfl
  | thresholding s => simp only [view] at hv; subst hv; intro n hn; simp at hn
  | vectorSum s => simp only [view] at hv; subst hv; intro n hn; simp at hn
  | quantile s ps => simp only [view] at hv; subst hv; intro n hn; simp at hn

theorem flat_additive (sigma : ℝ → ℝ → ℝ → ℝ) (p : Params) (parts : List Part) :
    ∀ x ∈ flat sigma p parts, ∀ a b : (Combiner.compound (combinersOf sigma p parts)).Acc,
      x.2.read ((Combiner.compound (combinersOf sigma p parts)).merge a b).2 = x.2.read a.2 + x.2.read b.2 := by
  induction parts with
  | nil => simp [flat]
  | cons part parts ih =>
    intro x hx a b
    simp only [flat, List.mem_append, List.mem_map] at hx
    rcases hx with ⟨n, hn, rfl⟩ | ⟨y, hy, rfl⟩
    · exact numbers_additive sigma p part n hn a.2.1 b.2.1
    · exact ih y hy (0, a.2.2) (0, b.2.2)

/-! ### Products of densities -/

theorem prod_nonneg' {α : Type} (l : List α) (f : α → ℝ) (h : ∀ a ∈ l, 0 ≤ f a) : 0 ≤ (l.map f).prod := by
  induction l with
  | nil => simp
  | cons a l ih =>
    simp only [List.map_cons, List.prod_cons]
    exact mul_nonneg (h a (by simp)) (ih fun x hx => h x (by simp [hx]))

theorem prod_comm' {α β : Type} (l : List α) (m : List β) (f : α → β → ℝ) :
    (l.map fun a => (m.map fun b => f a b).prod).prod = (m.map fun b => (l.map fun a => f a b).prod).prod := by
  induction l with
  | nil => simp
  | cons a l ih => simp only [List.map_cons, List.prod_cons, ih, List.prod_map_mul]

theorem prod_le_exp {α : Type} (l : List α) (f g e : α → ℝ) (hf : ∀ a ∈ l, 0 ≤ f a) (hg : ∀ a ∈ l, 0 ≤ g a)
    (h : ∀ a ∈ l, f a ≤ Real.exp (e a) * g a) :
    (l.map f).prod ≤ Real.exp (l.map e).sum * (l.map g).prod := by
  induction l with
  | nil => simp
  | cons a l ih =>
    simp only [List.map_cons, List.prod_cons, List.sum_cons, Real.exp_add]
    have h1 := h a (by simp)
    have h2 := ih (fun x hx => hf x (by simp [hx])) (fun x hx => hg x (by simp [hx])) fun x hx => h x (by simp [hx])
    have h3 := prod_nonneg' l f fun x hx => hf x (by simp [hx])
    calc f a * (l.map f).prod ≤ (Real.exp (e a) * g a) * (Real.exp (l.map e).sum * (l.map g).prod) :=
          mul_le_mul h1 h2 h3 (mul_nonneg (Real.exp_pos _).le (hg a (by simp)))
      _ = _ := by ring

theorem laplaceDensity_nonneg {b : ℝ} (hb : 0 ≤ b) (t : ℝ) : 0 ≤ laplaceDensity b t := by
  unfold laplaceDensity; positivity

theorem mapM_ok' {α β ε : Type} (f : α → Except ε β) (g : α → β) (l : List α) (h : ∀ a ∈ l, f a = .ok (g a)) :
    l.mapM f = .ok (l.map g) := by
  induction l with
  | nil => rfl
  | cons a l ih =>
    rw [List.mapM_cons, h a (by simp), ih fun x hx => h x (by simp [hx])]
    rfl

/-! ### One query -/

theorem rows_removeId (pid : R → P) (q : Query R K) (u : P) (data : List R) :
    q.rows pid (removeId pid u data) = without u (q.rows pid data) := by
  unfold Query.rows removeId without
  rw [List.filter_map]
  rfl

/-- The exact value of a number in a partition of the output. -/
theorem read_out {cs : List (Combiner ℚ)} {a out : List (K × (Combiner.compound cs).Acc)}
    (h : IsCombine (Combiner.compound cs).merge a out) (f : (Combiner.compound cs).Acc → ℚ)
    (hf : ∀ x y, f ((Combiner.compound cs).merge x y) = f x + f y) : ∀ e ∈ out, f e.2 = partitionTotal f a e.1 := by
  intro e he
  obtain ⟨t, ht, hv⟩ := h.values e he
  rw [hv, eval_hom _ f hf, partitionTotal, (ht.map f).sum_eq]

theorem flat_numbers (sigma : ℝ → ℝ → ℝ → ℝ) (p : Params) (parts : List Part) (k : K) :
    (flat sigma p parts).map (fun x => (k, x.2.spec, x.2.comp))
      = parts.flatMap fun part => (view sigma p part).numbers.map fun n => (k, n.spec, n.comp) := by
  induction parts with
  | nil => rfl
  | cons part parts ih =>
    rw [List.flatMap_cons, ← ih, flat, List.map_append, List.map_map, List.map_map]
    rfl

theorem query_loss (sigma : ℝ → ℝ → ℝ → ℝ) (s : Specs) (env : Env K) (henv : env.Lawful) (pid : R → P) (q : Query R K)
    (hs : Supported q.params) (parts : List Part) (hok : ∀ part ∈ parts, PartOk q.params part)
    (hnodup : (parts.flatMap Part.specs).Nodup) (ε δ : ℕ → ℝ)
    (hε : ∀ i ∈ parts.flatMap Part.specs, 0 < ε i ∧ s i = ⟨.laplace, none, some (ε i), some (δ i)⟩)
    (data : List R) (u : P) (hu : CallerKeepsBounds q.params u (q.rows pid data))
    (hf : q.params.publicFiltered = true → ∀ r ∈ data, q.key r ∈ q.partitions) :
    ∃ L L', evalQuery sigma s env pid q parts data = .ok L ∧
      evalQuery sigma s env pid q parts (removeId pid u data) = .ok L' ∧
      (∀ l, l ∈ L.map Noisy.label ↔ l ∈ queryLabels sigma q parts) ∧
      (L.map Noisy.label).Nodup ∧ (L.map Noisy.label).Perm (L'.map Noisy.label) ∧
      (∀ n, n ∈ L ∨ n ∈ L' → n.spec ∈ parts.flatMap Part.specs ∧ ∃ b x, n.mech = .laplace b x ∧ 0 < b) ∧
      ∀ o, density L o ≤ Real.exp ((parts.flatMap Part.specs).map ε).sum * density L' o ∧
        density L' o ≤ Real.exp ((parts.flatMap Part.specs).map ε).sum * density L o := by
  set p := q.params with hpdef
  set cs := combinersOf sigma p parts with hcs
  obtain ⟨a, a', E, ha, ha', -, -⟩ := accumulators_change env.backend henv.backend henv.keyLocal p hs.bounds
    (Combiner.compound cs).sampling (Combiner.compound cs).create (some q.partitions) (q.rows pid data) u hu
  -- numbers
  have hcov : ∀ x ∈ flat sigma p parts, ∃ (sn : Sens) (y : ℝ), sn.l1 = some y ∧ 0 < y ∧ 0 < x.1 * ε x.2.spec ∧
      x.2.mech (s x.2.spec) = .ok (.laplace (y / (x.1 * ε x.2.spec)) y) ∧
      sn.Covers fun k => partitionTotal (fun acc : (Combiner.compound cs).Acc => x.2.read acc.2) a k
        - partitionTotal (fun acc : (Combiner.compound cs).Acc => x.2.read acc.2) a' k := by
    intro x hx
    obtain ⟨i, part, v, hv, h, n, h1, h2, h3, h4, h5, h6, h7⟩ := flat_mem sigma p parts x hx
    obtain ⟨sn, y, c1, c2, c3, c4⟩ := number_covered sigma env.backend henv.backend henv.keyLocal p hs.bounds hs.laplace cs i
      part (hok part h1) v hv h n h2 (some q.partitions) (q.rows pid data) u hu a a' ha ha'
    obtain ⟨e1, e2⟩ := hε x.2.spec ((flat_labels sigma p parts hok hnodup).2 x hx)
    refine ⟨sn, y, c1, c2, ?_, ?_, ?_⟩
    · rw [h3]
      refine mul_pos ?_ e1
      cases part <;> simp [share]
    · rw [h6, e2, c3, h3]
    · refine c4.of_eq fun k => ?_
      have : (fun acc : (Combiner.compound cs).Acc => x.2.read acc.2)
          = fun acc => n.read (Combiner.readAs v.comb i h acc) := funext h7
      rw [this]
  have hmech : ∀ x ∈ flat sigma p parts, ∃ m, x.2.mech (s x.2.spec) = .ok m := fun x hx =>
    (hcov x hx).elim fun _ h => h.elim fun _ h => ⟨_, h.2.2.2.1⟩
  -- evaluation
  have hsel : selectsPrivately p (some q.partitions) = false := rfl
  have heval : ∀ (d : List R) (acc : List (K × (Combiner.compound cs).Acc)),
      accumulators env.backend p (Combiner.compound cs).sampling (Combiner.compound cs).create (some q.partitions)
        (q.rows pid d) = .ok acc →
      evalQuery sigma s env pid q parts d = .ok ((env.combine (Combiner.compound cs).merge acc).flatMap fun e =>
        (flat sigma p parts).map fun x => ⟨e.1, x.2.spec, x.2.comp, x.2.read e.2.2, getMech s x.2.mech x.2.spec⟩) := by
    intro d acc hacc
    have h1 : partitionAccumulators env.backend cs (env.combine (Combiner.compound cs).merge) (fun _ _ => true) p
        (some q.partitions) (q.rows pid d) = .ok (env.combine (Combiner.compound cs).merge acc) := by
      unfold partitionAccumulators
      rw [hacc]
      rfl
    unfold evalQuery
    rw [h1]
    dsimp only
    rw [mapM_ok' _ (fun e => (flat sigma p parts).map fun x =>
      (⟨e.1, x.2.spec, x.2.comp, x.2.read e.2.2, getMech s x.2.mech x.2.spec⟩ : Noisy K)) _
      (fun e _ => evalParts_eq sigma s p e.1 parts e.2.2 hmech)]
    rfl
  have hkeys : ∀ (d : List R) (acc : List (K × (Combiner.compound cs).Acc)), (∀ r ∈ d, r ∈ data) →
      accumulators env.backend p (Combiner.compound cs).sampling (Combiner.compound cs).create (some q.partitions)
        (q.rows pid d) = .ok acc →
      ((env.combine (Combiner.compound cs).merge acc).map Prod.fst).Nodup ∧
        ∀ k, k ∈ (env.combine (Combiner.compound cs).merge acc).map Prod.fst ↔ k ∈ q.partitions := by
    intro d acc hd hacc
    obtain ⟨out, en, h1, h2, h3, -⟩ := C23_public_partitions_are_the_output env.backend henv.backend p hs.bounds cs
      (env.combine (Combiner.compound cs).merge) (henv.combine _) (fun _ _ => true) q.partitions (q.rows pid d) (by
        intro hh r hr
        obtain ⟨x, hx, rfl⟩ := List.mem_map.mp hr
        exact hf hh x (hd x hx))
    have h4 : partitionAccumulators env.backend cs (env.combine (Combiner.compound cs).merge) (fun _ _ => true) p
        (some q.partitions) (q.rows pid d) = .ok (env.combine (Combiner.compound cs).merge acc) := by
      unfold partitionAccumulators
      rw [hacc]
      rfl
    rw [h4] at h1
    cases h1
    exact ⟨h2, h3⟩
  rw [← rows_removeId] at ha'
  obtain ⟨k1, k2⟩ := hkeys data a (fun r hr => hr) ha
  obtain ⟨k1', k2'⟩ := hkeys _ a' (fun r hr => (List.mem_filter.mp hr).1) ha'
  set out := env.combine (Combiner.compound cs).merge a with hout
  set out' := env.combine (Combiner.compound cs).merge a' with hout'
  have hperm : (out.map Prod.fst).Perm (out'.map Prod.fst) :=
    (List.perm_ext_iff_of_nodup k1 k1').mpr fun k => by rw [k2, k2']
  have hlab : ∀ o : List (K × (Combiner.compound cs).Acc),
      ((o.flatMap fun e => (flat sigma p parts).map fun x =>
        (⟨e.1, x.2.spec, x.2.comp, x.2.read e.2.2, getMech s x.2.mech x.2.spec⟩ : Noisy K)).map Noisy.label)
      = (o.map Prod.fst).flatMap fun k => (flat sigma p parts).map fun x => (k, x.2.spec, x.2.comp) := by
    intro o
    rw [List.map_flatMap, List.flatMap_map]
    congr 1
    funext e
    rw [List.map_map]; rfl
  refine ⟨_, _, heval data a ha, heval _ a' ha', ?_, ?_, ?_, ?_, ?_⟩
  · intro l
    rw [hlab, queryLabels]
    constructor
    · intro h
      obtain ⟨k, hk, h⟩ := List.mem_flatMap.mp h
      rw [flat_numbers] at h
      exact List.mem_flatMap.mpr ⟨k, (k2 k).mp hk, h⟩
    · intro h
      obtain ⟨k, hk, h⟩ := List.mem_flatMap.mp h
      rw [← flat_numbers] at h
      exact List.mem_flatMap.mpr ⟨k, (k2 k).mpr hk, h⟩
  · -- labels are distinct
    have hl := (flat_labels sigma p parts hok hnodup).1
    rw [List.map_flatMap, List.nodup_flatMap]
    constructor
    · intro e he
      rw [List.map_map]
      have : (Noisy.label ∘ fun x : ℝ × Number (Combiner.AccTuple cs) =>
          (⟨e.1, x.2.spec, x.2.comp, x.2.read e.2.2, getMech s x.2.mech x.2.spec⟩ : Noisy K))
          = (fun y : ℕ × ℕ => (e.1, y)) ∘ fun x => (x.2.spec, x.2.comp) := rfl
      rw [this, ← List.map_map]
      exact hl.map fun y z hyz => by simpa using hyz
    · have h1 := List.pairwise_map.mp k1
      refine h1.imp ?_
      intro e e' hne
      simp only [Function.onFun, List.map_map]
      intro y hy hy'
      obtain ⟨x, -, rfl⟩ := List.mem_map.mp hy
      obtain ⟨x', -, h⟩ := List.mem_map.mp hy'
      exact hne (congrArg Prod.fst h).symm
  · -- the same labels
    rw [hlab, hlab]
    exact hperm.flatMap_right _
  · -- Laplace mechanisms with the budgets of the query
    intro n hn
    have key : ∀ o : List (K × (Combiner.compound cs).Acc), n ∈ (o.flatMap fun e => (flat sigma p parts).map fun x =>
          (⟨e.1, x.2.spec, x.2.comp, x.2.read e.2.2, getMech s x.2.mech x.2.spec⟩ : Noisy K)) →
        n.spec ∈ parts.flatMap Part.specs ∧ ∃ b x, n.mech = .laplace b x ∧ 0 < b := by
      intro o hn
      obtain ⟨e, he, hn⟩ := List.mem_flatMap.mp hn
      obtain ⟨x, hx, rfl⟩ := List.mem_map.mp hn
      obtain ⟨sn, y, h1, h2, h3, h4, h5⟩ := hcov x hx
      refine ⟨(flat_labels sigma p parts hok hnodup).2 x hx, _, y, ?_, div_pos h2 h3⟩
      simp only [getMech, h4]
    rcases hn with hn | hn
    · exact key out hn
    · exact key out' hn
  · intro o
    -- densities as products over partitions and numbers
    have hd : ∀ (acc out : List (K × (Combiner.compound cs).Acc)), IsCombine (Combiner.compound cs).merge acc out →
        density (out.flatMap fun e => (flat sigma p parts).map fun x =>
          (⟨e.1, x.2.spec, x.2.comp, x.2.read e.2.2, getMech s x.2.mech x.2.spec⟩ : Noisy K)) o
        = ((flat sigma p parts).map fun x => ((out.map Prod.fst).map fun k =>
            noiseDensity (getMech s x.2.mech x.2.spec) (o k x.2.spec x.2.comp -
              (partitionTotal (fun acc : (Combiner.compound cs).Acc => x.2.read acc.2) acc k : ℚ))).prod).prod := by
      intro acc out hC
      unfold density
      rw [List.map_flatMap, List.flatMap_def, List.prod_flatten, List.map_map, ← prod_comm', List.map_map]
      congr 1
      apply List.map_congr_left
      intro e he
      simp only [Function.comp_apply, List.map_map]
      congr 1
      apply List.map_congr_left
      intro x hx
      simp only [Function.comp_apply]
      rw [read_out hC (fun acc => x.2.read acc.2) (flat_additive sigma p parts x hx) e he]
    rw [hd a out (henv.combine _ a), hd a' out' (henv.combine _ a')]
    have hp' : ∀ x : ℝ × Number (Combiner.AccTuple cs), ((out'.map Prod.fst).map fun k =>
            noiseDensity (getMech s x.2.mech x.2.spec) (o k x.2.spec x.2.comp -
              (partitionTotal (fun acc : (Combiner.compound cs).Acc => x.2.read acc.2) a' k : ℚ))).prod
        = ((out.map Prod.fst).map fun k =>
            noiseDensity (getMech s x.2.mech x.2.spec) (o k x.2.spec x.2.comp -
              (partitionTotal (fun acc : (Combiner.compound cs).Acc => x.2.read acc.2) a' k : ℚ))).prod :=
      fun x => (hperm.symm.map _).prod_eq
    simp only [hp']
    rw [← flat_sum sigma p parts hok ε]
    have hnn : ∀ x ∈ flat sigma p parts, ∀ f : K → ℝ, 0 ≤ ((out.map Prod.fst).map fun k =>
        noiseDensity (getMech s x.2.mech x.2.spec) (f k)).prod := by
      intro x hx f
      obtain ⟨sn, y, h1, h2, h3, h4, h5⟩ := hcov x hx
      apply prod_nonneg'
      intro k _
      simp only [getMech, h4, noiseDensity]
      exact laplaceDensity_nonneg (div_pos h2 h3).le _
    have hstep : ∀ x ∈ flat sigma p parts, ∀ (exact Δ : K → ℚ), (∀ sn : Sens, sn.Covers (fun k =>
          partitionTotal (fun acc : (Combiner.compound cs).Acc => x.2.read acc.2) a k
        - partitionTotal (fun acc : (Combiner.compound cs).Acc => x.2.read acc.2) a' k) → sn.Covers Δ) →
        ((out.map Prod.fst).map fun k => noiseDensity (getMech s x.2.mech x.2.spec)
            (o k x.2.spec x.2.comp - (exact k : ℚ))).prod
          ≤ Real.exp (x.1 * ε x.2.spec) * ((out.map Prod.fst).map fun k => noiseDensity (getMech s x.2.mech x.2.spec)
            (o k x.2.spec x.2.comp - ((exact k + Δ k : ℚ) : ℝ))).prod := by
      intro x hx exact Δ hΔ
      obtain ⟨sn, y, h1, h2, h3, h4, h5⟩ := hcov x hx
      obtain ⟨m, hm, hl⟩ := C58_laplace_privacy_loss sigma (x.1 * ε x.2.spec) h3 sn
        (fun z hz => by rw [h1] at hz; cases hz; exact h2) Δ (hΔ sn h5) ⟨.laplace, none, some (x.1 * ε x.2.spec), none⟩
        rfl rfl rfl
      have hm2 : createAdditive sigma ⟨.laplace, none, some (x.1 * ε x.2.spec), none⟩ sn
          = .ok (.laplace (y / (x.1 * ε x.2.spec)) y) := additive_laplace sigma (sens := .ok sn) rfl h1
      rw [hm2] at hm
      cases hm
      have := hl (out.map Prod.fst) k1 (fun k => ((exact k : ℚ) : ℝ)) (fun k => o k x.2.spec x.2.comp)
      simp only [getMech, h4, noiseDensity]
      push_cast
      exact this
    constructor
    · apply prod_le_exp
      · exact fun x hx => hnn x hx _
      · exact fun x hx => hnn x hx _
      · intro x hx
        have := hstep x hx (partitionTotal (fun acc : (Combiner.compound cs).Acc => x.2.read acc.2) a)
          (fun k => -(partitionTotal (fun acc : (Combiner.compound cs).Acc => x.2.read acc.2) a k
            - partitionTotal (fun acc : (Combiner.compound cs).Acc => x.2.read acc.2) a' k)) (fun sn h => covers_neg h)
        simpa using this
    · apply prod_le_exp
      · exact fun x hx => hnn x hx _
      · exact fun x hx => hnn x hx _
      · intro x hx
        have := hstep x hx (partitionTotal (fun acc : (Combiner.compound cs).Acc => x.2.read acc.2) a')
          (fun k => partitionTotal (fun acc : (Combiner.compound cs).Acc => x.2.read acc.2) a k
            - partitionTotal (fun acc : (Combiner.compound cs).Acc => x.2.read acc.2) a' k) (fun sn h => h)
        simpa using this

end PDP.EndToEnd
