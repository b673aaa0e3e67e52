import Verif.Histogram.Props

/-! # Property C34: quantiles of a histogram -/

set_option linter.unusedSectionVars false

namespace PDP.Histogram

open PDP.Engine (Err)

/-- `v` is the lower end of the right-most bin with at most a fraction `q` of the data to its left. -/
def IsQuantile (bins : List Bin) (q v : ℚ) : Prop :=
  ∃ l b r, bins = l ++ b :: r ∧ v = b.lower ∧ (totalCount l : ℚ) / totalCount bins ≤ q ∧
    ∀ r1 b' r2, r = r1 ++ b' :: r2 → q < (totalCount (l ++ b :: r1) : ℚ) / totalCount bins

/-! ### Lemmas -/

theorem totalCount_append (a b : List Bin) : totalCount (a ++ b) = totalCount a + totalCount b := by
  simp [totalCount]

theorem totalCount_cons (b : Bin) (l : List Bin) : totalCount (b :: l) = b.count + totalCount l := by
  simp [totalCount]

theorem totalCount_reverse (l : List Bin) : totalCount l.reverse = totalCount l := by
  simp [totalCount, List.map_reverse, List.sum_reverse]

theorem takeQuantiles_spec (ratio lower : ℚ) (todo res : List ℚ) (hs : todo.Pairwise (fun a b => b ≤ a)) :
    ∃ a b, todo = a ++ b ∧ takeQuantiles ratio lower todo res = (b, res ++ a.map fun _ => lower) ∧
      (∀ q ∈ a, ratio ≤ q) ∧ ∀ q ∈ b, q < ratio := by
  induction todo generalizing res with
  | nil => exact ⟨[], [], rfl, by simp [takeQuantiles], by simp, by simp⟩
  | cons q todo ih =>
    rw [List.pairwise_cons] at hs
    unfold takeQuantiles
    by_cases h : ratio ≤ q
    · rw [if_pos h]
      obtain ⟨a, b, h1, h2, h3, h4⟩ := ih (res ++ [lower]) hs.2
      refine ⟨q :: a, b, by rw [h1]; rfl, by rw [h2]; simp, ?_, h4⟩
      intro x hx
      rcases List.mem_cons.mp hx with rfl | hx
      · exact h
      · exact h3 x hx
    · rw [if_neg h]
      refine ⟨[], q :: todo, rfl, by simp, by simp, ?_⟩
      intro x hx
      rcases List.mem_cons.mp hx with rfl | hx
      · exact not_le.mp h
      · exact lt_of_le_of_lt (hs.1 x hx) (not_le.mp h)

theorem quantilesLoop_spec (bins rem done : List Bin) (hb : bins = rem.reverse ++ done) (todo res : List ℚ)
    (hs : todo.Pairwise (fun a b => b ≤ a))
    (hdone : ∀ q ∈ todo, ∀ r1 b' r2, done = r1 ++ b' :: r2 →
      q < (totalCount (rem.reverse ++ r1) : ℚ) / totalCount bins) :
    ∃ handled todo' new, todo = handled ++ todo' ∧
      quantilesLoop (totalCount bins) rem (totalCount rem) todo res = (todo', res ++ new) ∧
      List.Forall₂ (IsQuantile bins) handled new ∧
      ∀ q ∈ todo', ∀ r1 b' r2, bins = r1 ++ b' :: r2 → q < (totalCount r1 : ℚ) / totalCount bins := by
  induction rem generalizing done todo res with
  | nil =>
    refine ⟨[], todo, [], rfl, by simp [quantilesLoop], .nil, ?_⟩
    intro q hq r1 b' r2 h
    have := hdone q hq r1 b' r2 (by rw [← h, hb]; rfl)
    simpa using this
  | cons b rem ih =>
    have hsm : ((totalCount (b :: rem) : ℕ) : ℚ) - b.count = totalCount rem := by
      rw [totalCount_cons]; push_cast; ring
    have hrev : (b :: rem).reverse = rem.reverse ++ [b] := by simp
    have hb' : bins = rem.reverse ++ b :: done := by rw [hb, hrev]; simp
    unfold quantilesLoop
    simp only [hsm]
    obtain ⟨a, t, h1, h2, h3, h4⟩ := takeQuantiles_spec ((totalCount rem : ℚ) / totalCount bins) b.lower todo res hs
    rw [h2]
    simp only
    have hst : t.Pairwise (fun a b => b ≤ a) := by rw [h1] at hs; exact (List.pairwise_append.mp hs).2.1
    obtain ⟨handled, todo', new, g1, g2, g3, g4⟩ := ih (b :: done) hb' t (res ++ a.map fun _ => b.lower) hst (by
      intro q hq r1 b' r2 h
      cases r1 with
      | nil =>
        rw [List.append_nil, totalCount_reverse]
        exact h4 q hq
      | cons c r1 =>
        simp only [List.cons_append, List.cons.injEq] at h
        obtain ⟨rfl, h⟩ := h
        have := hdone q (by rw [h1]; exact List.mem_append_right _ hq) r1 b' r2 h
        rw [hrev] at this
        simpa using this)
    refine ⟨a ++ handled, todo', (a.map fun _ => b.lower) ++ new, by rw [h1, g1]; simp, by rw [g2]; simp, ?_, g4⟩
    have hA : ∀ a' : List ℚ, (∀ q ∈ a', q ∈ a) → List.Forall₂ (IsQuantile bins) a' (a'.map fun _ => b.lower) := by
      intro a' ha'
      induction a' with
      | nil => exact .nil
      | cons q a' iha =>
        refine .cons ?_ (iha fun x hx => ha' x (List.mem_cons_of_mem _ hx))
        refine ⟨rem.reverse, b, done, hb', rfl, ?_, ?_⟩
        · rw [totalCount_reverse]
          exact h3 q (ha' q List.mem_cons_self)
        · intro r1 b' r2 h
          have := hdone q (by rw [h1]; exact List.mem_append_left _ (ha' q List.mem_cons_self)) r1 b' r2 h
          rw [hrev] at this
          simpa using this
    exact List.rel_append (hA a fun q hq => hq) g3

/-! ### C34 -/

/-- **C34.** For a non-empty histogram and a sorted list of non-negative quantiles, `quantiles` returns for
each `q`, in the same order, the lower end of the right-most bin with at most a fraction `q` of the data
strictly to its left. -/
theorem C34_quantiles (bins : List Bin) (q : List ℚ) (hs : q.Pairwise (· ≤ ·)) (h0 : ∀ x ∈ q, 0 ≤ x)
    (hne : totalCount bins ≠ 0) :
    ∃ res, quantiles bins q = .ok res ∧ List.Forall₂ (IsQuantile bins) q res := by
  have hrs : q.reverse.Pairwise (fun a b => b ≤ a) := by rw [List.pairwise_reverse]; exact hs
  obtain ⟨handled, todo', new, h1, h2, h3, h4⟩ :=
    quantilesLoop_spec bins bins.reverse [] (by simp) q.reverse [] hrs (by simp)
  have htodo : todo' = [] := by
    by_contra hcon
    obtain ⟨x, hx⟩ := List.exists_mem_of_ne_nil _ hcon
    cases hb : bins with
    | nil => rw [hb] at hne; simp [totalCount] at hne
    | cons b bs =>
      have := h4 x hx [] b bs (by simpa using hb)
      have hx0 := h0 x (by
        have : x ∈ q.reverse := by rw [h1]; exact List.mem_append_right _ hx
        simpa using this)
      simp [totalCount] at this
      linarith
  subst htodo
  rw [totalCount_reverse] at h2
  refine ⟨new.reverse, ?_, ?_⟩
  · unfold quantiles
    rw [if_neg (by simpa using hs), if_neg hne, h2]
    simp
  · rw [List.append_nil] at h1
    have : q = handled.reverse := by rw [← h1, List.reverse_reverse]
    rw [this]
    exact List.forall₂_reverse_iff.mpr h3

/-- **C34.** An empty histogram and an unsorted list of quantiles are rejected. -/
theorem C34_rejected (bins : List Bin) (q : List ℚ) :
    (totalCount bins = 0 → quantiles bins q = .error .valueError) ∧
    (¬ q.Pairwise (· ≤ ·) → quantiles bins q = .error .valueError) := by
  constructor
  · intro h; unfold quantiles; split
    · rfl
    · rfl
  · intro h; unfold quantiles; rw [if_pos h]

/-- **C34, gap.** A negative quantile makes the fallback loop index a bin, a `TypeError`, instead of being
rejected. -/
theorem C34_negative_quantile_fails (bins : List Bin) (q : List ℚ) (hs : q.Pairwise (· ≤ ·))
    (hne : totalCount bins ≠ 0) (x : ℚ) (hx : x ∈ q) (hneg : x < 0) : quantiles bins q = .error .typeError := by
  have hrs : q.reverse.Pairwise (fun a b => b ≤ a) := by rw [List.pairwise_reverse]; exact hs
  obtain ⟨handled, todo', new, h1, h2, h3, h4⟩ :=
    quantilesLoop_spec bins bins.reverse [] (by simp) q.reverse [] hrs (by simp)
  rw [totalCount_reverse] at h2
  have hxt : x ∈ todo' := by
    have : x ∈ handled ++ todo' := by rw [← h1]; simpa using hx
    rcases List.mem_append.mp this with h | h
    · exfalso
      obtain ⟨v, -, hv⟩ : ∃ v ∈ new, IsQuantile bins x v := by
        clear h1 h2 this
        induction h3 with
        | nil => simp at h
        | cons hd _ ih =>
          rcases List.mem_cons.mp h with rfl | h
          · exact ⟨_, List.mem_cons_self, hd⟩
          · obtain ⟨v, hv, hq⟩ := ih h
            exact ⟨v, List.mem_cons_of_mem _ hv, hq⟩
      obtain ⟨l, b, r, -, -, hle, -⟩ := hv
      have : (0 : ℚ) ≤ (totalCount l : ℚ) / totalCount bins := by positivity
      linarith
    · exact h
  unfold quantiles
  rw [if_neg (by simpa using hs), if_neg hne, h2]
  cases todo' with
  | nil => simp at hxt
  | cons a as => simp

/-- **C34.** Quantiles are monotone: for a sorted histogram a larger quantile is not smaller. -/
theorem C34_monotone (bins : List Bin) (hs : bins.Pairwise fun a b => a.lower < b.lower) (q q' v v' : ℚ)
    (hq : q ≤ q') (h : IsQuantile bins q v) (h' : IsQuantile bins q' v') : v ≤ v' := by
  obtain ⟨l, b, r, hb, rfl, h1, h2⟩ := h
  obtain ⟨l', b', r', hb', rfl, h1', h2'⟩ := h'
  by_contra hlt
  push Not at hlt
  -- then `b` is to the right of `b'`
  have hsplit : ∃ r1 r2, r' = r1 ++ b :: r2 ∧ l = l' ++ b' :: r1 := by
    rw [hb] at hb' hs
    rcases List.append_eq_append_iff.mp hb' with ⟨a, ha1, ha2⟩ | ⟨c, hc1, hc2⟩
    · -- l' = l ++ a : b is left of or equal to b'
      cases a with
      | nil =>
        simp only [List.nil_append, List.cons.injEq] at ha2
        rw [ha2.1] at hlt; exact absurd hlt (lt_irrefl _)
      | cons x a =>
        simp only [List.cons_append, List.cons.injEq] at ha2
        obtain ⟨rfl, ha2⟩ := ha2
        have hp := (List.pairwise_append.mp hs).2.1
        rw [List.pairwise_cons] at hp
        have := hp.1 b' (by rw [ha2]; simp)
        exact absurd hlt (lt_asymm this)
    · cases c with
      | nil =>
        simp only [List.nil_append, List.cons.injEq] at hc2
        rw [hc2.1] at hlt; exact absurd hlt (lt_irrefl _)
      | cons x c =>
        simp only [List.cons_append, List.cons.injEq] at hc2
        obtain ⟨rfl, hc2⟩ := hc2
        exact ⟨c, r, hc2, hc1⟩
  obtain ⟨r1, r2, hr, hl⟩ := hsplit
  have := h2' r1 b r2 hr
  rw [← hl] at this
  linarith

/-- **C34.** In terms of the data: for the histogram of integers `xs`, the returned value `v` is the lower end
of an occupied bin, at most a fraction `q` of the values is below `v`, and for the lower end `w` of every
occupied bin to the right, more than a fraction `q` is below `w`. -/
theorem C34_quantile_of_data (xs : List ℕ) (bins : List Bin) (h : IsCountHistogram xs bins) (q v : ℚ)
    (hv : IsQuantile bins q v) :
    (∃ x ∈ xs, v = ((binBounds x).1 : ℚ)) ∧
    (((xs.filter fun x : ℕ => (x : ℚ) < v).length : ℕ) : ℚ) / xs.length ≤ q ∧
    ∀ y ∈ xs, v < ((binBounds y).1 : ℚ) →
      q < (((xs.filter fun x : ℕ => (x : ℚ) < ((binBounds y).1 : ℚ)).length : ℕ) : ℚ) / xs.length := by
  -- number of values below the lower end of a bin
  have below : ∀ l b r, bins = l ++ b :: r →
      (xs.filter fun x : ℕ => (x : ℚ) < b.lower).length = totalCount l := by
    intro l b r hb
    have hg := h.sum_bins (fun x : ℕ => if (x : ℚ) < b.lower then (1 : ℚ) else 0)
    have hval : ∀ c ∈ bins, ∀ x ∈ inBin intBounds c.lower xs, ((x : ℚ) < b.lower ↔ c.lower < b.lower) := by
      intro c hc x hx
      have hxl : ((binBounds x).1 : ℚ) = c.lower := by
        exact of_decide_eq_true (List.mem_filter.mp hx).2
      obtain ⟨y, hy, hyl⟩ := (h.occupied b.lower).mp ⟨b, by rw [hb]; simp, rfl⟩
      simp only [intBounds] at hyl
      constructor
      · intro hlt
        rw [← hxl]
        exact lt_of_le_of_lt (by exact_mod_cast (mem_bin x).1) hlt
      · intro hlt
        rw [← hxl, ← hyl] at hlt
        have hlt' : (binBounds x).1 < (binBounds y).1 := by exact_mod_cast hlt
        rw [← hyl]
        have : x < (binBounds y).1 := by
          rcases C32_bins_partition_integers.2.2.1 x y with he | he | he
          · rw [he] at hlt'; omega
          · have := mem_bin x; omega
          · have := mem_bin y; omega
        exact_mod_cast this
    have h1 : (bins.map fun c => ((inBin intBounds c.lower xs).map
        (fun x : ℕ => if (x : ℚ) < b.lower then (1 : ℚ) else 0)).sum)
        = bins.map fun c => if c.lower < b.lower then (c.count : ℚ) else 0 := by
      apply List.map_congr_left
      intro c hc
      have h2 : (inBin intBounds c.lower xs).map (fun x : ℕ => if (x : ℚ) < b.lower then (1 : ℚ) else 0)
          = (inBin intBounds c.lower xs).map fun _ => if c.lower < b.lower then (1 : ℚ) else 0 := by
        apply List.map_congr_left
        intro x hx
        simp only [hval c hc x hx]
      rw [h2, h.count c hc]
      split <;> simp
    rw [h1] at hg
    have hs := h.sorted
    rw [hb] at hs hg
    obtain ⟨s1, s2, s3⟩ := List.pairwise_append.mp hs
    rw [List.pairwise_cons] at s2
    rw [List.map_append, List.map_cons, List.sum_append, List.sum_cons] at hg
    have e1 : (l.map fun c => if c.lower < b.lower then (c.count : ℚ) else 0) = l.map fun c => (c.count : ℚ) := by
      apply List.map_congr_left
      intro c hc
      rw [if_pos (s3 c hc b List.mem_cons_self)]
    have e2 : (r.map fun c => if c.lower < b.lower then (c.count : ℚ) else 0) = r.map fun _ => (0 : ℚ) := by
      apply List.map_congr_left
      intro c hc
      rw [if_neg (not_lt.mpr (s2.1 c hc).le)]
    rw [e1, e2] at hg
    have e3 : (xs.map fun x : ℕ => if (x : ℚ) < b.lower then (1 : ℚ) else 0).sum
        = ((xs.filter fun x : ℕ => (x : ℚ) < b.lower).length : ℚ) := by
      clear hg h1 hval h
      induction xs with
      | nil => rfl
      | cons x xs ih =>
        rw [List.map_cons, List.sum_cons, ih, List.filter_cons]
        by_cases hx : (x : ℚ) < b.lower <;> simp [hx]
        ring
    rw [e3] at hg
    simp only [lt_irrefl, if_false, List.map_const', List.sum_replicate, smul_zero, add_zero] at hg
    have : ((totalCount l : ℕ) : ℚ) = (l.map fun c => (c.count : ℚ)).sum := by
      unfold totalCount; rw [Nat.cast_list_sum, List.map_map]; rfl
    rw [← this] at hg
    exact_mod_cast hg.symm
  have htot : totalCount bins = xs.length := by
    have h1 := h.sum_bins (fun _ => (1 : ℚ))
    have h2 : ((totalCount bins : ℕ) : ℚ)
        = (bins.map fun b => ((inBin intBounds b.lower xs).map fun _ => (1 : ℚ)).sum).sum := by
      unfold totalCount
      rw [Nat.cast_list_sum, List.map_map]
      congr 1
      apply List.map_congr_left
      intro b hb
      simp [h.count b hb]
    rw [h1] at h2
    simp only [List.map_const', List.sum_replicate, nsmul_eq_mul, mul_one] at h2
    exact_mod_cast h2
  obtain ⟨l, b, r, hb, rfl, h1, h2⟩ := hv
  refine ⟨?_, ?_, ?_⟩
  · obtain ⟨x, hx, he⟩ := (h.occupied b.lower).mp ⟨b, by rw [hb]; simp, rfl⟩
    exact ⟨x, hx, he.symm⟩
  · rw [below l b r hb, ← htot]; exact h1
  · intro y hy hlt
    obtain ⟨c, hc, hcl⟩ := (h.occupied _).mpr ⟨y, hy, rfl⟩
    simp only [intBounds] at hcl
    rw [← hcl] at hlt ⊢
    -- c is in r
    have hs := h.sorted
    rw [hb] at hs hc
    obtain ⟨s1, s2, s3⟩ := List.pairwise_append.mp hs
    rcases List.mem_append.mp hc with hcm | hcm
    · exact absurd hlt (lt_asymm (s3 c hcm b List.mem_cons_self))
    rcases List.mem_cons.mp hcm with rfl | hcm
    · exact absurd hlt (lt_irrefl _)
    · obtain ⟨r1, r2, hr⟩ := List.append_of_mem hcm
      have := h2 r1 c r2 hr
      rw [below (l ++ b :: r1) c r2 (by rw [hb, hr]; simp), ← htot]
      exact this

/-- Ten values in three bins: the median is in the second bin. -/
example : quantiles [⟨1, 2, 4, 4, 1, 1⟩, ⟨2, 3, 3, 6, 2, 2⟩, ⟨5, 6, 3, 15, 5, 5⟩] [0, 1 / 2, 9 / 10]
    = .ok [1, 2, 5] := by decide +kernel

end PDP.Histogram
