import Verif.Histogram.Spec
import Mathlib.Algebra.BigOperators.Group.List.Basic
import Mathlib.Algebra.BigOperators.Ring.List
import Mathlib.Algebra.Order.BigOperators.Group.List
import Mathlib.Data.Rat.Floor
import Mathlib.Tactic.Linarith

/-! # Lemmas about histograms -/

set_option linter.unusedSectionVars false

namespace PDP.Histogram

open PDP.Engine (MergeTree IsCombine)

variable {α : Type}

/-- The bin of one weighted value. -/
def itemBin (val : α → ℚ) (bd : α → ℚ × ℚ) (e : α × ℕ) : ℚ × Bin :=
  ((bd e.1).1, ⟨(bd e.1).1, (bd e.1).2, e.2, e.2 * val e.1, val e.1, val e.1⟩)

theorem eval_add (t : MergeTree Bin) :
    (t.eval Bin.add).count = (t.leaves.map Bin.count).sum ∧ (t.eval Bin.add).sum = (t.leaves.map Bin.sum).sum ∧
    (∃ b ∈ t.leaves, b.max = (t.eval Bin.add).max) ∧ (∀ b ∈ t.leaves, b.max ≤ (t.eval Bin.add).max) ∧
    (∃ b ∈ t.leaves, b.min = (t.eval Bin.add).min) ∧ (∀ b ∈ t.leaves, (t.eval Bin.add).min ≤ b.min) ∧
    (∃ b ∈ t.leaves, b.lower = (t.eval Bin.add).lower ∧ b.upper = (t.eval Bin.add).upper) := by
  induction t with
  | leaf a => simp [MergeTree.eval, MergeTree.leaves]
  | node l r hl hr =>
    obtain ⟨l1, l2, ⟨l3, l3m, l3e⟩, l4, ⟨l5, l5m, l5e⟩, l6, ⟨l7, l7m, l7e⟩⟩ := hl
    obtain ⟨r1, r2, ⟨r3, r3m, r3e⟩, r4, ⟨r5, r5m, r5e⟩, r6, -⟩ := hr
    simp only [MergeTree.eval, MergeTree.leaves, Bin.add, List.map_append, List.sum_append, List.mem_append]
    refine ⟨by rw [l1, r1], by rw [l2, r2], ?_, ?_, ?_, ?_, ⟨l7, Or.inl l7m, l7e⟩⟩
    · rcases le_total (l.eval Bin.add).max (r.eval Bin.add).max with h | h
      · exact ⟨r3, Or.inr r3m, by rw [max_eq_right h]; exact r3e⟩
      · exact ⟨l3, Or.inl l3m, by rw [max_eq_left h]; exact l3e⟩
    · rintro b (hb | hb)
      · exact le_trans (l4 b hb) (le_max_left _ _)
      · exact le_trans (r4 b hb) (le_max_right _ _)
    · rcases le_total (l.eval Bin.add).min (r.eval Bin.add).min with h | h
      · exact ⟨l5, Or.inl l5m, by rw [min_eq_left h]; exact l5e⟩
      · exact ⟨r5, Or.inr r5m, by rw [min_eq_right h]; exact r5e⟩
    · rintro b (hb | hb)
      · exact le_trans (min_le_left _ _) (l6 b hb)
      · exact le_trans (min_le_right _ _) (r6 b hb)

/-- Values with multiplicities, repeated. -/
def expand (items : List (α × ℕ)) : List α := items.flatMap fun e => List.replicate e.2 e.1

theorem mem_expand {items : List (α × ℕ)} {x : α} : x ∈ expand items ↔ ∃ e ∈ items, e.1 = x ∧ e.2 ≠ 0 := by
  simp only [expand, List.mem_flatMap, List.mem_replicate]
  constructor
  · rintro ⟨e, he, h1, h2⟩; exact ⟨e, he, h2.symm, h1⟩
  · rintro ⟨e, he, h1, h2⟩; exact ⟨e, he, h2, h1.symm⟩

theorem inBin_expand (bd : α → ℚ × ℚ) (l : ℚ) (items : List (α × ℕ)) :
    inBin bd l (expand items) = expand (items.filter fun e => (bd e.1).1 = l) := by
  induction items with
  | nil => rfl
  | cons e items ih =>
    have h1 : expand (e :: items) = List.replicate e.2 e.1 ++ expand items := by simp [expand]
    have h2 : inBin bd l (List.replicate e.2 e.1 ++ expand items)
        = (List.replicate e.2 e.1).filter (fun x => (bd x).1 = l) ++ inBin bd l (expand items) := List.filter_append ..
    rw [h1, h2, ih, List.filter_cons]
    by_cases h : (bd e.1).1 = l
    · simp [h, expand]
    · simp [h]

theorem expand_length (items : List (α × ℕ)) : (expand items).length = (items.map Prod.snd).sum := by
  simp [expand, List.length_flatMap]

theorem expand_sum (val : α → ℚ) (items : List (α × ℕ)) :
    ((expand items).map val).sum = (items.map fun e => (e.2 : ℚ) * val e.1).sum := by
  induction items with
  | nil => rfl
  | cons e items ih =>
    have h1 : expand (e :: items) = List.replicate e.2 e.1 ++ expand items := by simp [expand]
    rw [h1, List.map_append, List.sum_append, ih]
    simp

theorem valuesOf_items (val : α → ℚ) (bd : α → ℚ × ℚ) (k : ℚ) (items : List (α × ℕ)) :
    valuesOf k (items.map (itemBin val bd))
      = (items.filter fun e => (bd e.1).1 = k).map fun e => (itemBin val bd e).2 := by
  induction items with
  | nil => rfl
  | cons e items ih =>
    rw [List.map_cons, valuesOf_cons, ih, List.filter_cons]
    by_cases h : (bd e.1).1 = k <;> simp [itemBin, h]

/-- Sorting the reduced bins of weighted values gives the histogram of the repeated values. -/
theorem sortBins_spec (val : α → ℚ) (bd : α → ℚ × ℚ)
    (hbd : ∀ x y, (bd x).1 = (bd y).1 → (bd x).2 = (bd y).2) (items : List (α × ℕ)) (hpos : ∀ e ∈ items, e.2 ≠ 0)
    (out : List (ℚ × Bin)) (hc : PDP.Engine.IsCombine Bin.add (items.map (itemBin val bd)) out) :
    IsHistogram val bd (expand items) (sortBins (out.map Prod.snd)) := by
  -- per reduced entry
  have hentry : ∀ e ∈ out, e.2.lower = e.1 ∧
      (∃ t : MergeTree Bin, (t.leaves.Perm ((items.filter fun x => (bd x.1).1 = e.1).map fun x => (itemBin val bd x).2)) ∧
        e.2 = t.eval Bin.add) := by
    intro e he
    obtain ⟨t, ht1, ht2⟩ := hc.values e he
    rw [valuesOf_items] at ht1
    refine ⟨?_, t, ht1, ht2⟩
    obtain ⟨-, -, -, -, -, -, b, hb, hbl, -⟩ := eval_add t
    have hb' := ht1.mem_iff.mp hb
    obtain ⟨x, hx, rfl⟩ := List.mem_map.mp hb'
    rw [ht2, ← hbl]
    simpa [itemBin] using (List.mem_filter.mp hx).2
  have hmem : ∀ b, b ∈ sortBins (out.map Prod.snd) ↔ ∃ e ∈ out, e.2 = b := by
    intro b
    unfold sortBins
    rw [List.mem_insertionSort, List.mem_map]
  have hfacts : ∀ b ∈ sortBins (out.map Prod.snd), ∃ t : MergeTree Bin,
      (t.leaves.Perm ((items.filter fun x => (bd x.1).1 = b.lower).map fun x => (itemBin val bd x).2)) ∧
        b = t.eval Bin.add := by
    intro b hb
    obtain ⟨e, he, rfl⟩ := (hmem b).mp hb
    obtain ⟨h1, t, ht, he2⟩ := hentry e he
    exact ⟨t, by rw [h1]; exact ht, he2⟩
  have hin : ∀ l x, x ∈ inBin bd l (expand items) ↔ ∃ e ∈ items, e.1 = x ∧ (bd e.1).1 = l := by
    intro l x
    rw [inBin_expand, mem_expand]
    constructor
    · rintro ⟨e, he, h1, h2⟩
      obtain ⟨h3, h4⟩ := List.mem_filter.mp he
      exact ⟨e, h3, h1, by simpa using h4⟩
    · rintro ⟨e, he, h1, h2⟩
      exact ⟨e, List.mem_filter.mpr ⟨he, by simpa using h2⟩, h1, hpos e he⟩
  refine ⟨?_, ?_, ?_, ?_, ?_, ?_, ?_⟩
  · -- sorted strictly, as keys are distinct
    have hperm : (sortBins (out.map Prod.snd)).Perm (out.map Prod.snd) :=
      List.perm_insertionSort _ _
    have hnd : ((sortBins (out.map Prod.snd)).map Bin.lower).Nodup := by
      rw [(hperm.map Bin.lower).nodup_iff, List.map_map]
      have : out.map (Bin.lower ∘ Prod.snd) = out.map Prod.fst := by
        apply List.map_congr_left
        intro e he; exact (hentry e he).1
      rw [this]; exact hc.nodup
    have hle : (sortBins (out.map Prod.snd)).Pairwise (fun a b => a.lower ≤ b.lower) := by
      have : Std.Total (fun a b : Bin => a.lower ≤ b.lower) := ⟨fun a b => le_total _ _⟩
      have : IsTrans Bin (fun a b : Bin => a.lower ≤ b.lower) := ⟨fun a b c => le_trans⟩
      exact List.pairwise_insertionSort _ _
    have hne : (sortBins (out.map Prod.snd)).Pairwise (fun a b => a.lower ≠ b.lower) := by
      have := hnd
      rw [List.Nodup, List.pairwise_map] at this
      exact this
    exact (hle.and hne).imp fun h => lt_of_le_of_ne h.1 h.2
  · intro l
    constructor
    · rintro ⟨b, hb, rfl⟩
      obtain ⟨t, ht, hbt⟩ := hfacts b hb
      obtain ⟨c, hcm⟩ := List.exists_mem_of_ne_nil _ (PDP.Engine.MergeTree.leaves_ne_nil t)
      obtain ⟨x, hx, -⟩ := List.mem_map.mp (ht.mem_iff.mp hcm)
      obtain ⟨h3, h4⟩ := List.mem_filter.mp hx
      have h4' : (bd x.1).1 = b.lower := by simpa using h4
      exact ⟨x.1, mem_expand.mpr ⟨x, h3, rfl, hpos x h3⟩, h4'⟩
    · rintro ⟨x, hx, rfl⟩
      obtain ⟨e, he, rfl, -⟩ := mem_expand.mp hx
      have hk : (bd e.1).1 ∈ out.map Prod.fst := by
        rw [hc.keys]
        exact List.mem_map.mpr ⟨itemBin val bd e, List.mem_map.mpr ⟨e, he, rfl⟩, rfl⟩
      obtain ⟨o, ho, hoe⟩ := List.mem_map.mp hk
      exact ⟨o.2, (hmem _).mpr ⟨o, ho, rfl⟩, by rw [(hentry o ho).1, hoe]⟩
  · intro b hb x hx
    obtain ⟨t, ht, hbt⟩ := hfacts b hb
    obtain ⟨-, -, -, -, -, -, c, hcm, -, hcu⟩ := eval_add t
    obtain ⟨y, hy, rfl⟩ := List.mem_map.mp (ht.mem_iff.mp hcm)
    have hy2 : (bd y.1).1 = b.lower := by simpa using (List.mem_filter.mp hy).2
    obtain ⟨e, -, rfl, he2⟩ := (hin _ _).mp hx
    rw [hbt, ← hcu]
    exact hbd y.1 e.1 (by rw [hy2, he2])
  · intro b hb
    obtain ⟨t, ht, hbt⟩ := hfacts b hb
    rw [inBin_expand, expand_length]
    conv_lhs => rw [hbt]
    rw [(eval_add t).1, (ht.map Bin.count).sum_eq, List.map_map]
    rfl
  · intro b hb
    obtain ⟨t, ht, hbt⟩ := hfacts b hb
    rw [inBin_expand, expand_sum]
    conv_lhs => rw [hbt]
    rw [(eval_add t).2.1, (ht.map Bin.sum).sum_eq, List.map_map]
    rfl
  · intro b hb
    obtain ⟨t, ht, hbt⟩ := hfacts b hb
    obtain ⟨-, -, ⟨c, hcm, hce⟩, hall, -⟩ := eval_add t
    constructor
    · obtain ⟨y, hy, rfl⟩ := List.mem_map.mp (ht.mem_iff.mp hcm)
      obtain ⟨h3, h4⟩ := List.mem_filter.mp hy
      refine ⟨y.1, (hin _ _).mpr ⟨y, h3, rfl, by simpa using h4⟩, ?_⟩
      conv_rhs => rw [hbt]
      exact hce
    · intro x hx
      obtain ⟨e, he, rfl, he2⟩ := (hin _ _).mp hx
      have := hall (itemBin val bd e).2 (ht.mem_iff.mpr (List.mem_map.mpr ⟨e, List.mem_filter.mpr ⟨he, by simpa using he2⟩, rfl⟩))
      rw [← hbt] at this
      exact this
  · intro b hb
    obtain ⟨t, ht, hbt⟩ := hfacts b hb
    obtain ⟨-, -, -, -, ⟨c, hcm, hce⟩, hall, -⟩ := eval_add t
    constructor
    · obtain ⟨y, hy, rfl⟩ := List.mem_map.mp (ht.mem_iff.mp hcm)
      obtain ⟨h3, h4⟩ := List.mem_filter.mp hy
      refine ⟨y.1, (hin _ _).mpr ⟨y, h3, rfl, by simpa using h4⟩, ?_⟩
      conv_rhs => rw [hbt]
      exact hce
    · intro x hx
      obtain ⟨e, he, rfl, he2⟩ := (hin _ _).mp hx
      have := hall (itemBin val bd e).2 (ht.mem_iff.mpr (List.mem_map.mpr ⟨e, List.mem_filter.mpr ⟨he, by simpa using he2⟩, rfl⟩))
      rw [← hbt] at this
      exact this

/-- The histogram computed from weighted values is the histogram of the repeated values. -/
theorem toHistogram_spec (O : Ops) (hO : O.Lawful) (val : α → ℚ) (bd : α → ℚ × ℚ)
    (hbd : ∀ x y, (bd x).1 = (bd y).1 → (bd x).2 = (bd y).2) (items : List (α × ℕ)) (hpos : ∀ e ∈ items, e.2 ≠ 0) :
    IsHistogram val bd (expand items) (toHistogram O (items.map (itemBin val bd))) :=
  sortBins_spec val bd hbd items hpos _ (hO.reduce Bin.add _)

theorem inBin_perm (bd : α → ℚ × ℚ) (l : ℚ) {xs ys : List α} (h : xs.Perm ys) :
    (inBin bd l xs).Perm (inBin bd l ys) := h.filter _

/-- A histogram does not depend on the order of the values. -/
theorem IsHistogram.perm {val : α → ℚ} {bd : α → ℚ × ℚ} {xs ys : List α} {bins : List Bin}
    (h : IsHistogram val bd xs bins) (hp : xs.Perm ys) : IsHistogram val bd ys bins where
  sorted := h.sorted
  occupied := fun l => by rw [h.occupied]; simp only [hp.mem_iff]
  upper := fun b hb x hx => h.upper b hb x ((inBin_perm bd _ hp).mem_iff.mpr hx)
  count := fun b hb => by rw [h.count b hb, (inBin_perm bd _ hp).length_eq]
  sum := fun b hb => by rw [h.sum b hb, ((inBin_perm bd _ hp).map val).sum_eq]
  max := fun b hb => by simpa only [(inBin_perm bd _ hp).mem_iff] using h.max b hb
  min := fun b hb => by simpa only [(inBin_perm bd _ hp).mem_iff] using h.min b hb

theorem sorted_ext {a b : List Bin} (ha : a.Pairwise fun x y => x.lower < y.lower)
    (hb : b.Pairwise fun x y => x.lower < y.lower) (h : ∀ x, x ∈ a ↔ x ∈ b) : a = b := by
  have nd : ∀ l : List Bin, (l.Pairwise fun x y => x.lower < y.lower) → l.Nodup := by
    intro l hl
    exact hl.imp fun hlt heq => by rw [heq] at hlt; exact lt_irrefl _ hlt
  have hp : a.Perm b := perm_of_nodup (nd a ha) (nd b hb) h
  exact List.Perm.eq_of_pairwise (le := fun x y => x.lower < y.lower)
    (fun x y _ _ h1 h2 => absurd h1 (lt_asymm h2)) ha hb hp

/-- The histogram of given values is unique. -/
theorem IsHistogram.unique {val : α → ℚ} {bd : α → ℚ × ℚ} {xs : List α} {a b : List Bin}
    (ha : IsHistogram val bd xs a) (hb : IsHistogram val bd xs b) : a = b := by
  have key : ∀ (a b : List Bin), IsHistogram val bd xs a → IsHistogram val bd xs b → ∀ x ∈ a, x ∈ b := by
    intro a b ha hb x hx
    obtain ⟨z, hz, hzl⟩ := (ha.occupied x.lower).mp ⟨x, hx, rfl⟩
    obtain ⟨y, hy, hyl⟩ := (hb.occupied x.lower).mpr ⟨z, hz, hzl⟩
    have hzin : z ∈ inBin bd x.lower xs := List.mem_filter.mpr ⟨hz, by simpa using hzl⟩
    have : x = y := by
      have e1 := ha.count x hx
      have e2 := hb.count y hy
      have s1 := ha.sum x hx
      have s2 := hb.sum y hy
      have u1 := ha.upper x hx z hzin
      have u2 := hb.upper y hy z (by rw [hyl]; exact hzin)
      obtain ⟨⟨m1, m1m, m1e⟩, m2⟩ := ha.max x hx
      obtain ⟨⟨n1, n1m, n1e⟩, n2⟩ := hb.max y hy
      obtain ⟨⟨p1, p1m, p1e⟩, p2⟩ := ha.min x hx
      obtain ⟨⟨q1, q1m, q1e⟩, q2⟩ := hb.min y hy
      rw [hyl] at e2 s2 n1m n2 q1m q2
      have hmax : x.max = y.max := le_antisymm (by rw [← m1e]; exact n2 _ m1m) (by rw [← n1e]; exact m2 _ n1m)
      have hmin : x.min = y.min := le_antisymm (by rw [← q1e]; exact p2 _ q1m) (by rw [← p1e]; exact q2 _ p1m)
      cases x; cases y
      simp only at *
      simp [hyl.symm, u1, u2, e1, e2, s1, s2, hmax, hmin]
    rw [this]; exact hy
  exact sorted_ext ha.sorted hb.sorted fun x => ⟨key a b ha hb x, key b a hb ha x⟩

theorem intBounds_upper (x y : ℕ) (h : (intBounds x).1 = (intBounds y).1) : (intBounds x).2 = (intBounds y).2 := by
  simp only [intBounds] at *
  have h' : (binBounds x).1 = (binBounds y).1 := by exact_mod_cast h
  rcases C32_bins_partition_integers.2.2.1 x y with he | he | he
  · rw [he]
  · have := mem_bin x; omega
  · have := mem_bin y; omega

theorem toFrequencyBin_eq (e : ℕ × ℕ) : toFrequencyBin e = itemBin (fun n : ℕ => (n : ℚ)) intBounds e := rfl

theorem frequencyHelper_spec (O : Ops) (hO : O.Lawful) (items : List (ℕ × ℕ)) (hpos : ∀ e ∈ items, e.2 ≠ 0) :
    IsCountHistogram (expand items) (frequencyHelper O items) :=
  toHistogram_spec O hO (fun n : ℕ => (n : ℚ)) intBounds intBounds_upper items hpos

theorem frequencyHistogram_spec (O : Ops) (hO : O.Lawful) (xs : List ℕ) :
    IsCountHistogram xs (frequencyHistogram O xs) :=
  (frequencyHelper_spec O hO _ fun e he => (IsCount.pos (hO.count xs) e he).ne').perm (IsCount.expand (hO.count xs))

/-- Sum of a function over the bins equals the sum over the values. -/
theorem IsHistogram.sum_bins {val : α → ℚ} {bd : α → ℚ × ℚ} {xs : List α} {bins : List Bin}
    (h : IsHistogram val bd xs bins) (g : α → ℚ) :
    (bins.map fun b => ((inBin bd b.lower xs).map g).sum).sum = (xs.map g).sum := by
  have key : ∀ (bins : List Bin), (bins.Pairwise fun a b => a.lower < b.lower) →
      (bins.map fun b => ((inBin bd b.lower xs).map g).sum).sum
        = ((xs.filter fun x => ∃ b ∈ bins, b.lower = (bd x).1).map g).sum := by
    intro bins
    induction bins with
    | nil => intro _; simp
    | cons b bins ih =>
      intro hs
      rw [List.pairwise_cons] at hs
      rw [List.map_cons, List.sum_cons, ih hs.2]
      have gen : ∀ ys : List α, ((inBin bd b.lower ys).map g).sum
          + ((ys.filter fun x => ∃ c ∈ bins, c.lower = (bd x).1).map g).sum
          = ((ys.filter fun x => ∃ c ∈ b :: bins, c.lower = (bd x).1).map g).sum := by
        intro ys
        induction ys with
        | nil => simp [inBin]
        | cons y ys ihy =>
          simp only [inBin, List.filter_cons] at ihy ⊢
          by_cases h1 : (bd y).1 = b.lower
          · have h2 : ¬ ∃ c ∈ bins, c.lower = (bd y).1 := by
              rintro ⟨c, hc, hcl⟩
              have := hs.1 c hc
              rw [hcl, h1] at this
              exact lt_irrefl _ this
            have h3 : ∃ c ∈ b :: bins, c.lower = (bd y).1 := ⟨b, List.mem_cons_self, h1.symm⟩
            rw [if_pos (by simpa using h1), if_neg (by simpa using h2), if_pos (by simpa using h3)]
            simp only [List.map_cons, List.sum_cons]
            rw [← ihy]; ring
          · by_cases h2 : ∃ c ∈ bins, c.lower = (bd y).1
            · have h3 : ∃ c ∈ b :: bins, c.lower = (bd y).1 := by
                obtain ⟨c, hc, hcl⟩ := h2; exact ⟨c, List.mem_cons_of_mem _ hc, hcl⟩
              rw [if_neg (by simpa using h1), if_pos (by simpa using h2), if_pos (by simpa using h3)]
              simp only [List.map_cons, List.sum_cons]
              rw [← ihy]; ring
            · have h3 : ¬ ∃ c ∈ b :: bins, c.lower = (bd y).1 := by
                rintro ⟨c, hc, hcl⟩
                rcases List.mem_cons.mp hc with rfl | hc
                · exact h1 hcl.symm
                · exact h2 ⟨c, hc, hcl⟩
              rw [if_neg (by simpa using h1), if_neg (by simpa using h2), if_neg (by simpa using h3)]
              exact ihy
      exact gen xs
  rw [key bins h.sorted]
  congr 2
  rw [List.filter_eq_self]
  intro x hx
  have := (h.occupied (bd x).1).mpr ⟨x, hx, rfl⟩
  simpa using this

end PDP.Histogram
