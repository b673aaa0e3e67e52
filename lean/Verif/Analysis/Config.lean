import Mathlib.Algebra.Order.Ring.Rat
import Mathlib.Data.List.Basic

/-!
# Multi-parameter configurations (`analysis/data_structures.py`)
-/

set_option linter.unusedVariables false

namespace PDP.Analysis.Config

/-! ### Model -/

inductive Err where
  | valueError
  | indexError
  | typeError
deriving DecidableEq

/-- An element of `min_sum_per_partition` / `max_sum_per_partition`: a number or one number per column. -/
inductive SumVal where
  | num (x : ℚ)
  | seq (xs : List ℚ)
deriving DecidableEq

def SumVal.isSeq : SumVal → Bool
  | .seq _ => true
  | .num _ => false

/-- The fields of `AggregateParams` which a configuration can replace, and the others (`rest`).  `N` noise kinds, `S` partition
selection strategies. -/
structure Params (N S R : Type) where
  l0 : Option ℕ
  linf : Option ℕ
  minSum : Option ℚ
  maxSum : Option ℚ
  noise : Option N
  strategy : S
  rest : R

/-- `MultiParameterConfiguration` (`data_structures.py:48-56`).  `none` is `None`. -/
structure Multi (N S : Type) where
  l0 : Option (List ℕ) := none
  linf : Option (List ℕ) := none
  minSum : Option (List SumVal) := none
  maxSum : Option (List SumVal) := none
  noise : Option (List N) := none
  strategy : Option (List S) := none

/-- Truth value of an optional sequence: neither `None` nor empty. -/
def given {A : Type} (o : Option (List A)) : Bool :=
  match o with
  | none => false
  | some [] => false
  | some (_ :: _) => true

/-- `len(value) for value in … if value`, for one attribute. -/
def sizeOf {A : Type} (o : Option (List A)) : List ℕ := if given o then [(o.getD []).length] else []

/-- `sizes` (`data_structures.py:59-60`). -/
def Multi.sizes {N S : Type} (c : Multi N S) : List ℕ :=
  sizeOf c.l0 ++ sizeOf c.linf ++ sizeOf c.minSum ++ sizeOf c.maxSum ++ sizeOf c.noise ++ sizeOf c.strategy

/-- `len(v)` for an element; only evaluated on sequences. -/
def SumVal.len : SumVal → ℕ
  | .seq xs => xs.length
  | .num _ => 0

/-- `common_value_len` (`data_structures.py:80-82`): `min` and `max` of an empty list raise `ValueError`. -/
def commonLen (a : List SumVal) : Except Err (Option ℕ) :=
  match a.map SumVal.len with
  | [] => .error .valueError
  | n :: ns => if ns.foldl min n = ns.foldl max n then .ok (some (ns.foldl min n)) else .ok none

/-- `__post_init__` (`data_structures.py:58-94`); the result is `_size`. -/
def Multi.check {N S : Type} (c : Multi N S) : Except Err ℕ :=
  match c.sizes with
  | [] => .error .valueError
  | n :: ns =>
    if ns.foldl min n ≠ ns.foldl max n then .error .valueError
    else if c.minSum.isNone ≠ c.maxSum.isNone then .error .valueError
    else if given c.minSum then
      let mn := c.minSum.getD []
      let mx := c.maxSum.getD []
      if mn.all SumVal.isSeq && mx.all SumVal.isSeq then do
        let s1 ← commonLen mn
        let s2 ← commonLen mx
        if s1 = none ∨ s2 = none ∨ s1 ≠ s2 then .error .valueError else .ok n
      else .ok n
    else .ok n

/-- `if self.x: params.x = self.x[index]`. -/
def replace {A : Type} (o : Option (List A)) (index : ℕ) (old : Option A) : Except Err (Option A) :=
  if given o then
    match (o.getD [])[index]? with
    | some x => .ok (some x)
    | none => .error .indexError
  else .ok old

/-- The pairs of bounds of `get_aggregate_params` (`data_structures.py:116-126`). -/
def Multi.sums {N S R : Type} (c : Multi N S) (params : Params N S R) (index : ℕ) :
    Except Err (List (Option ℚ × Option ℚ)) :=
  if given c.minSum then
    match (c.minSum.getD [])[index]?, (c.maxSum.getD [])[index]? with
    | some (.seq xs), some (.seq ys) => .ok ((xs.zip ys).map fun p => (some p.1, some p.2))
    | some (.seq _), some (.num _) => .error .typeError
    | some (.num x), some (.num y) => .ok [(some x, some y)]
    | some (.num _), some (.seq _) => .error .typeError
    | _, _ => .error .indexError
  else .ok [(params.minSum, params.maxSum)]

/-- `get_aggregate_params` of a configuration (`data_structures.py:100-127`).  (A number paired with a sequence is reported
as an error here; the code would pass the pair on.) -/
def Multi.get {N S R : Type} (c : Multi N S) (params : Params N S R) (index : ℕ) :
    Except Err (Params N S R × List (Option ℚ × Option ℚ)) := do
  let l0 ← replace c.l0 index params.l0
  let linf ← replace c.linf index params.linf
  let noise ← replace c.noise index params.noise
  let strategy ← replace c.strategy index (some params.strategy)
  let sums ← c.sums params index
  return ({ params with l0 := l0, linf := linf, noise := noise, strategy := strategy.getD params.strategy }, sums)

/-- `get_aggregate_params(options)` (`data_structures.py:155-168`). -/
def allParams {N S R : Type} (blueprint : Params N S R) (c : Option (Multi N S)) :
    Except Err (List (Params N S R × List (Option ℚ × Option ℚ))) :=
  match c with
  | none => .ok [(blueprint, [(blueprint.minSum, blueprint.maxSum)])]
  | some c => do
    let n ← c.check
    (List.range n).mapM fun i => c.get blueprint i

/-- `get_partition_selection_strategy` (`data_structures.py:171-185`). -/
def strategies {N S R : Type} (blueprint : Params N S R) (c : Option (Multi N S)) : Except Err (List S) :=
  match c with
  | none => .ok [blueprint.strategy]
  | some c => do
    let n ← c.check
    match c.strategy with
    | some s => return s
    | none => return List.replicate n blueprint.strategy

/-! ### Lemmas -/

theorem foldl_min_le : ∀ (l : List ℕ) (a : ℕ), l.foldl min a ≤ a ∧ ∀ x ∈ l, l.foldl min a ≤ x
  | [], a => by simp
  | y :: l, a => by
    obtain ⟨h1, h2⟩ := foldl_min_le l (min a y)
    refine ⟨h1.trans (Nat.min_le_left _ _), ?_⟩
    intro x hx
    rcases List.mem_cons.1 hx with rfl | hx
    · exact h1.trans (Nat.min_le_right _ _)
    · exact h2 x hx

theorem le_foldl_max : ∀ (l : List ℕ) (a : ℕ), a ≤ l.foldl max a ∧ ∀ x ∈ l, x ≤ l.foldl max a
  | [], a => by simp
  | y :: l, a => by
    obtain ⟨h1, h2⟩ := le_foldl_max l (max a y)
    refine ⟨(Nat.le_max_left _ _).trans h1, ?_⟩
    intro x hx
    rcases List.mem_cons.1 hx with rfl | hx
    · exact (Nat.le_max_right _ _).trans h1
    · exact h2 x hx

theorem min_eq_max_iff (n : ℕ) (ns : List ℕ) : ns.foldl min n = ns.foldl max n ↔ ∀ x ∈ ns, x = n := by
  constructor
  · intro h x hx
    have h1 := foldl_min_le ns n
    have h2 := le_foldl_max ns n
    have := h1.2 x hx
    have := h2.2 x hx
    omega
  · intro h
    have : ∀ (l : List ℕ), (∀ x ∈ l, x = n) → l.foldl min n = n ∧ l.foldl max n = n := by
      intro l
      induction l with
      | nil => simp
      | cons y l ih =>
        intro hl
        have hy := hl y (by simp)
        subst hy
        simpa using ih fun x hx => hl x (by simp [hx])
    obtain ⟨h1, h2⟩ := this ns h
    rw [h1, h2]

theorem foldl_min_const (n : ℕ) (ns : List ℕ) (h : ∀ x ∈ ns, x = n) : ns.foldl min n = n := by
  induction ns with
  | nil => rfl
  | cons y l ih =>
    have hy := h y (by simp)
    subst hy
    simpa using ih fun x hx => h x (by simp [hx])

theorem commonLen_some {a : List SumVal} {k : ℕ} : commonLen a = .ok (some k) ↔ a ≠ [] ∧ ∀ v ∈ a, v.len = k := by
  unfold commonLen
  cases a with
  | nil => simp
  | cons v a =>
    simp only [List.map_cons]
    constructor
    · intro h
      split_ifs at h with hc
      · rw [min_eq_max_iff] at hc
        rw [foldl_min_const _ _ hc] at h
        simp only [Except.ok.injEq, Option.some.injEq] at h
        refine ⟨by simp, ?_⟩
        intro w hw
        rcases List.mem_cons.1 hw with rfl | hw
        · exact h
        · rw [hc _ (List.mem_map_of_mem hw)]; exact h
      · simp at h
    · rintro ⟨_, h⟩
      have hc : ∀ x ∈ a.map SumVal.len, x = v.len := by
        intro x hx
        obtain ⟨w, hw, rfl⟩ := List.mem_map.1 hx
        rw [h w (by simp [hw]), h v (by simp)]
      rw [if_pos ((min_eq_max_iff _ _).2 hc), foldl_min_const _ _ hc, h v (by simp)]

/-! ### C55 -/

/-- A list attribute is absent (`None` or empty) or has exactly `n` elements. -/
def Len {A : Type} (n : ℕ) (o : Option (List A)) : Prop := o = none ∨ o = some [] ∨ ∃ l, o = some l ∧ l ≠ [] ∧ l.length = n

theorem mem_sizeOf {A : Type} {o : Option (List A)} {m : ℕ} :
    m ∈ sizeOf o ↔ ∃ l, o = some l ∧ l ≠ [] ∧ l.length = m := by
  unfold sizeOf given
  rcases o with _ | _ | ⟨x, l⟩
  · simp
  · simp
  · simp [eq_comm]

theorem len_iff {A : Type} {o : Option (List A)} {n : ℕ} : Len n o ↔ ∀ m ∈ sizeOf o, m = n := by
  unfold Len
  constructor
  · rintro (rfl | rfl | ⟨l, rfl, hne, rfl⟩) m hm
    · simp [sizeOf, given] at hm
    · simp [sizeOf, given] at hm
    · obtain ⟨l', h, _, rfl⟩ := mem_sizeOf.1 hm
      cases h; rfl
  · intro h
    rcases o with _ | _ | ⟨x, l⟩
    · exact Or.inl rfl
    · exact Or.inr (Or.inl rfl)
    · exact Or.inr (Or.inr ⟨_, rfl, by simp, h _ (mem_sizeOf.2 ⟨_, rfl, by simp, rfl⟩)⟩)

/-- **C55** (lengths). If a configuration is accepted with size `n` then `n > 0`, at least one attribute is given, every
attribute which is given has exactly `n` elements, and the two sum bounds are both `None` or both not. -/
theorem C55_lengths {N S : Type} (c : Multi N S) (n : ℕ) (h : c.check = .ok n) :
    0 < n ∧ (given c.l0 ∨ given c.linf ∨ given c.minSum ∨ given c.maxSum ∨ given c.noise ∨ given c.strategy) ∧
    Len n c.l0 ∧ Len n c.linf ∧ Len n c.minSum ∧ Len n c.maxSum ∧ Len n c.noise ∧ Len n c.strategy ∧
    (c.minSum = none ↔ c.maxSum = none) := by
  unfold Multi.check at h
  rcases hs : c.sizes with _ | ⟨m, ms⟩
  · rw [hs] at h; simp at h
  rw [hs] at h
  dsimp only at h
  split_ifs at h with h1 h2 h3 h4
  all_goals
    have hmn : m = n := by
      first
        | (simp only [Except.ok.injEq] at h; exact h)
        | (rcases hc1 : commonLen (c.minSum.getD []) with e | s1
           · rw [hc1] at h; cases h
           rcases hc2 : commonLen (c.maxSum.getD []) with e | s2
           · rw [hc1, hc2] at h; cases h
           rw [hc1, hc2] at h
           change (if _ then _ else _) = _ at h
           split_ifs at h
           simp only [Except.ok.injEq] at h; exact h)
    subst hmn
    push Not at h1
    rw [min_eq_max_iff] at h1
    have hall : ∀ x ∈ c.sizes, x = m := by
      intro x hx
      rw [hs] at hx
      rcases List.mem_cons.1 hx with rfl | hx
      · rfl
      · exact h1 x hx
    have hm : m ∈ c.sizes := by rw [hs]; simp
    simp only [Multi.sizes, List.mem_append] at hall hm
    have hg : ∀ {A : Type} {o : Option (List A)}, m ∈ sizeOf o → given o = true ∧ 0 < m := by
      intro A o ho
      obtain ⟨l, rfl, hne, rfl⟩ := mem_sizeOf.1 ho
      cases l with
      | nil => exact absurd rfl hne
      | cons x l => exact ⟨rfl, by simp⟩
    refine ⟨?_, ?_, len_iff.2 fun x hx => hall x (by tauto), len_iff.2 fun x hx => hall x (by tauto),
      len_iff.2 fun x hx => hall x (by tauto), len_iff.2 fun x hx => hall x (by tauto),
      len_iff.2 fun x hx => hall x (by tauto), len_iff.2 fun x hx => hall x (by tauto), ?_⟩
    · rcases hm with ((((hm | hm) | hm) | hm) | hm) | hm <;> exact (hg hm).2
    · rcases hm with ((((hm | hm) | hm) | hm) | hm) | hm <;> simp [(hg hm).1]
    · push Not at h2
      cases hmin : c.minSum <;> cases hmax : c.maxSum <;> simp_all

/-- The parameter for index `i` is the `i`-th element of the attribute when it is given, the blueprint's otherwise. -/
def Element {A : Type} (i : ℕ) (o : Option (List A)) (old new : Option A) : Prop :=
  (∀ l, o = some l → l ≠ [] → new = l[i]? ∧ new ≠ none) ∧ (o = none ∨ o = some [] → new = old)

theorem replace_spec {A : Type} {o : Option (List A)} {n i : ℕ} (h : Len n o) (hi : i < n) (old : Option A) :
    ∃ new, replace o i old = .ok new ∧ Element i o old new := by
  rcases h with rfl | rfl | ⟨l, rfl, hne, hl⟩
  · exact ⟨old, rfl, by simp [Element]⟩
  · exact ⟨old, rfl, by simp [Element]⟩
  · have hi' : i < l.length := by omega
    refine ⟨some l[i], ?_, ?_, by simp [hne]⟩
    · cases l with
      | nil => exact absurd rfl hne
      | cons x l => simp only [replace, given, Option.getD_some]; rw [List.getElem?_eq_getElem hi']; rfl
    · rintro l' h _; cases h; simp [hi']

/-- The elements of the two sum bounds are of one kind: numbers, or sequences. -/
def SameKind (mn mx : Option (List SumVal)) : Prop :=
  ∀ l l', mn = some l → mx = some l' → l ≠ [] → l' ≠ [] ∧ ((∀ v ∈ l ++ l', v.isSeq = true) ∨ ∀ v ∈ l ++ l', v.isSeq = false)

/-- What the derived pairs of bounds must be. -/
def SumsElement (i : ℕ) (mn mx : Option (List SumVal)) (old new : List (Option ℚ × Option ℚ)) : Prop :=
  (∀ l l', mn = some l → mx = some l' → l ≠ [] →
    (∃ x y, l[i]? = some (.num x) ∧ l'[i]? = some (.num y) ∧ new = [(some x, some y)]) ∨
    (∃ xs ys, l[i]? = some (.seq xs) ∧ l'[i]? = some (.seq ys) ∧ new.map Prod.fst = xs.map some ∧
      new.map Prod.snd = ys.map some)) ∧
  (mn = none ∨ mn = some [] → new = old)

theorem check_columns {N S : Type} {c : Multi N S} {n : ℕ} (h : c.check = .ok n) {l l' : List SumVal}
    (h1 : c.minSum = some l) (h2 : c.maxSum = some l') (hne : l ≠ []) (hs : ∀ v ∈ l ++ l', v.isSeq = true) :
    ∃ k, ∀ v ∈ l ++ l', v.len = k := by
  unfold Multi.check at h
  have hg : given c.minSum = true := by
    rw [h1]
    cases l with
    | nil => exact absurd rfl hne
    | cons x l => rfl
  have hall : (l.all SumVal.isSeq && l'.all SumVal.isSeq) = true := by
    simp only [Bool.and_eq_true, List.all_eq_true]
    exact ⟨fun v hv => hs v (by simp [hv]), fun v hv => hs v (by simp [hv])⟩
  rcases hsz : c.sizes with _ | ⟨m, ms⟩
  · rw [hsz] at h; simp at h
  rw [hsz] at h
  dsimp only at h
  rw [if_pos hg, h1, h2] at h
  simp only [Option.getD_some] at h
  rw [if_pos hall] at h
  split_ifs at h
  rcases hc1 : commonLen l with e | s1
  · rw [hc1] at h; cases h
  rcases hc2 : commonLen l' with e | s2
  · rw [hc1, hc2] at h; cases h
  rw [hc1, hc2] at h
  change (if _ then _ else _) = _ at h
  split_ifs at h with hc
  push Not at hc
  obtain ⟨hn1, hn2, heq⟩ := hc
  subst heq
  rcases s1 with _ | k
  · exact absurd rfl hn1
  · refine ⟨k, fun v hv => ?_⟩
    rcases List.mem_append.1 hv with hv | hv
    · exact (commonLen_some.1 hc1).2 v hv
    · exact (commonLen_some.1 hc2).2 v hv

theorem sums_spec {N S R : Type} (c : Multi N S) (n i : ℕ) (h : c.check = .ok n) (hi : i < n)
    (hk : SameKind c.minSum c.maxSum) (blueprint : Params N S R) :
    ∃ new, c.sums blueprint i = .ok new ∧
      SumsElement i c.minSum c.maxSum [(blueprint.minSum, blueprint.maxSum)] new := by
  obtain ⟨_, _, _, _, hmin, hmax, _, _, hiff⟩ := C55_lengths c n h
  unfold Multi.sums
  rcases hmn : c.minSum with _ | l
  · exact ⟨_, rfl, by simp [SumsElement]⟩
  rcases hmx : c.maxSum with _ | l'
  · exact absurd (hiff.2 hmx) (by rw [hmn]; simp)
  by_cases hl : l = []
  · subst hl; exact ⟨_, rfl, by simp [SumsElement]⟩
  have hg : given (some l) = true := by
    cases l with
    | nil => exact absurd rfl hl
    | cons x l => rfl
  obtain ⟨hl', hkind⟩ := hk l l' hmn hmx hl
  rw [hmn] at hmin
  rw [hmx] at hmax
  have hlen : l.length = n := by
    rcases hmin with h | h | ⟨_, h, _, h2⟩
    · cases h
    · cases h; exact absurd rfl hl
    · cases h; exact h2
  have hlen' : l'.length = n := by
    rcases hmax with h | h | ⟨_, h, _, h2⟩
    · cases h
    · cases h; exact absurd rfl hl'
    · cases h; exact h2
  have hi1 : i < l.length := by omega
  have hi2 : i < l'.length := by omega
  rw [if_pos hg]
  simp only [Option.getD_some]
  rw [List.getElem?_eq_getElem hi1, List.getElem?_eq_getElem hi2]
  have m1 : l[i] ∈ l ++ l' := by simp
  have m2 : l'[i] ∈ l ++ l' := by simp
  rcases hkind with hs | hs
  · have s1 := hs _ m1
    have s2 := hs _ m2
    obtain ⟨k, hcol⟩ := check_columns h hmn hmx hl hs
    have k1 := hcol _ m1
    have k2 := hcol _ m2
    rcases e1 : l[i] with x | xs
    · rw [e1] at s1; simp [SumVal.isSeq] at s1
    rcases e2 : l'[i] with y | ys
    · rw [e2] at s2; simp [SumVal.isSeq] at s2
    rw [e1] at k1
    rw [e2] at k2
    refine ⟨_, rfl, ?_, by simp [hl]⟩
    rintro m m' hm hm' _
    cases hm; cases hm'
    refine Or.inr ⟨xs, ys, by simp [hi1, e1], by simp [hi2, e2], ?_, ?_⟩
    · rw [List.map_map]
      have : (Prod.fst ∘ fun p : ℚ × ℚ => (some p.1, some p.2)) = some ∘ Prod.fst := rfl
      rw [this, ← List.map_map, List.map_fst_zip]
      simp only [SumVal.len] at k1 k2; omega
    · rw [List.map_map]
      have : (Prod.snd ∘ fun p : ℚ × ℚ => (some p.1, some p.2)) = some ∘ Prod.snd := rfl
      rw [this, ← List.map_map, List.map_snd_zip]
      simp only [SumVal.len] at k1 k2; omega
  · have s1 := hs _ m1
    have s2 := hs _ m2
    rcases e1 : l[i] with x | xs
    · rcases e2 : l'[i] with y | ys
      · refine ⟨_, rfl, ?_, by simp [hl]⟩
        rintro m m' hm hm' _
        cases hm; cases hm'
        exact Or.inl ⟨x, y, by simp [hi1, e1], by simp [hi2, e2], rfl⟩
      · rw [e2] at s2; simp [SumVal.isSeq] at s2
    · rw [e1] at s1; simp [SumVal.isSeq] at s1

/-- **C55** (elements). For an accepted configuration of size `n` and every index below `n`, the derived parameters have
the `i`-th element of each attribute which is given, and the blueprint's value of all others. -/
theorem C55_element {N S R : Type} (c : Multi N S) (n i : ℕ) (h : c.check = .ok n) (hi : i < n)
    (hk : SameKind c.minSum c.maxSum) (blueprint : Params N S R) :
    ∃ p sums, c.get blueprint i = .ok (p, sums) ∧
      Element i c.l0 blueprint.l0 p.l0 ∧ Element i c.linf blueprint.linf p.linf ∧
      Element i c.noise blueprint.noise p.noise ∧ Element i c.strategy (some blueprint.strategy) (some p.strategy) ∧
      SumsElement i c.minSum c.maxSum [(blueprint.minSum, blueprint.maxSum)] sums ∧
      p.minSum = blueprint.minSum ∧ p.maxSum = blueprint.maxSum ∧ p.rest = blueprint.rest := by
  obtain ⟨_, _, h1, h2, _, _, h5, h6, _⟩ := C55_lengths c n h
  obtain ⟨a, ha, ea⟩ := replace_spec h1 hi blueprint.l0
  obtain ⟨b, hb, eb⟩ := replace_spec h2 hi blueprint.linf
  obtain ⟨d, hd, ed⟩ := replace_spec h5 hi blueprint.noise
  obtain ⟨e, he, ee⟩ := replace_spec h6 hi (some blueprint.strategy)
  obtain ⟨s, hs, es⟩ := sums_spec c n i h hi hk blueprint
  have hesome : ∃ st, e = some st := by
    rcases h6 with ho | ho | ⟨l, ho, hne, _⟩
    · exact ⟨_, ee.2 (Or.inl ho)⟩
    · exact ⟨_, ee.2 (Or.inr ho)⟩
    · exact Option.ne_none_iff_exists'.1 (ee.1 l ho hne).2
  obtain ⟨st, rfl⟩ := hesome
  refine ⟨{ blueprint with l0 := a, linf := b, noise := d, strategy := st }, s, ?_, ea, eb, ed, ee, es, rfl, rfl, rfl⟩
  unfold Multi.get
  rw [ha, hb, hd, he, hs]
  rfl

theorem mapM_range_ok {A : Type} (f : ℕ → Except Err A) : ∀ (n : ℕ), (∀ i < n, ∃ a, f i = .ok a) →
    ∃ l : List A, (List.range n).mapM f = .ok l ∧ l.length = n ∧ ∀ i, (hi : i < n) → ∀ a, f i = .ok a → l[i]? = some a := by
  have gen : ∀ (xs : List ℕ), (∀ i ∈ xs, ∃ a, f i = .ok a) →
      ∃ l : List A, xs.mapM f = .ok l ∧ l.length = xs.length ∧
        ∀ j (hj : j < xs.length), ∀ a, f xs[j] = .ok a → l[j]? = some a := by
    intro xs
    induction xs with
    | nil => intro _; exact ⟨[], rfl, rfl, by simp⟩
    | cons x xs ih =>
      intro h
      obtain ⟨a, ha⟩ := h x (by simp)
      obtain ⟨l, hl, hlen, hget⟩ := ih fun i hi => h i (by simp [hi])
      refine ⟨a :: l, by rw [List.mapM_cons, ha, hl]; rfl, by simp [hlen], ?_⟩
      intro j hj b hb
      cases j with
      | zero => simp only [List.getElem_cons_zero] at hb; rw [ha] at hb; cases hb; rfl
      | succ j => simpa using hget j (by simpa using hj) b (by simpa using hb)
  intro n h
  obtain ⟨l, hl, hlen, hget⟩ := gen (List.range n) fun i hi => h i (List.mem_range.1 hi)
  refine ⟨l, hl, by simpa using hlen, fun i hi a ha => hget i (by simpa using hi) a (by simpa using ha)⟩

/-- **C55** (all configurations). One set of parameters per configuration, in order; and the list of partition selection
strategies for the reports agrees with them, unless the strategies are given as an empty list. -/
theorem C55_all {N S R : Type} (c : Multi N S) (n : ℕ) (h : c.check = .ok n) (hk : SameKind c.minSum c.maxSum)
    (blueprint : Params N S R) :
    ∃ l : List (Params N S R × List (Option ℚ × Option ℚ)), allParams blueprint (some c) = .ok l ∧ l.length = n ∧
      (∀ i, i < n → ∃ e, l[i]? = some e ∧ c.get blueprint i = .ok e) ∧
      (c.strategy ≠ some [] → strategies blueprint (some c) = .ok (l.map fun e => e.1.strategy)) := by
  obtain ⟨l, hl, hlen, hget⟩ := mapM_range_ok (fun i => c.get blueprint i) n fun i hi => by
    obtain ⟨p, s, hp, _⟩ := C55_element c n i h hi hk blueprint
    exact ⟨_, hp⟩
  have hall : allParams blueprint (some c) = .ok l := by
    simp only [allParams, h]; exact hl
  have hel : ∀ i, i < n → ∃ e, l[i]? = some e ∧ c.get blueprint i = .ok e := by
    intro i hi
    obtain ⟨p, s, hp, _⟩ := C55_element c n i h hi hk blueprint
    exact ⟨_, hget i hi _ hp, hp⟩
  refine ⟨l, hall, hlen, hel, fun hst => ?_⟩
  have hS := (C55_lengths c n h).2.2.2.2.2.2.2.1
  simp only [strategies, h]
  rcases hs : c.strategy with _ | st
  · show Except.ok _ = _
    congr 1
    symm
    rw [List.eq_replicate_iff]
    refine ⟨by simp [hlen], ?_⟩
    intro b hb
    obtain ⟨e, he, rfl⟩ := List.mem_map.1 hb
    obtain ⟨i, hi, rfl⟩ := List.getElem_of_mem he
    obtain ⟨p, s, hp, _, _, _, hel', _⟩ := C55_element c n i h (by omega) hk blueprint
    have := hget i (by omega) _ hp
    rw [List.getElem?_eq_getElem hi, Option.some.injEq] at this
    rw [this]
    simpa using hel'.2 (Or.inl hs)
  · show Except.ok _ = _
    congr 1
    have hne : st ≠ [] := fun h0 => hst (by rw [hs, h0])
    have hstl : st.length = n := by
      rw [hs] at hS
      rcases hS with h | h | ⟨_, h, _, h2⟩
      · cases h
      · cases h; exact absurd rfl hne
      · cases h; exact h2
    apply List.ext_getElem?
    intro i
    by_cases hi : i < n
    · obtain ⟨p, s, hp, _, _, _, hel', _⟩ := C55_element c n i h hi hk blueprint
      have := hget i hi _ hp
      rw [List.getElem?_map, this]
      exact ((hel'.1 st hs hne).1).symm
    · rw [List.getElem?_eq_none (by omega), List.getElem?_eq_none (by simp; omega)]

/-- C55, a gap: an empty list of strategies counts as "not given" when the parameters are derived, but the reports look
their strategy up in the empty list. -/
theorem C55_empty_strategies {N S R : Type} (l0s : List ℕ) (hne : l0s ≠ []) (blueprint : Params N S R) :
    let c : Multi N S := { l0 := some l0s, strategy := some [] }
    c.check = .ok l0s.length ∧ strategies blueprint (some c) = .ok [] := by
  intro c
  cases l0s with
  | nil => exact absurd rfl hne
  | cons x l =>
    have hc : c.check = .ok (x :: l).length := by
      simp [c, Multi.check, Multi.sizes, PDP.Analysis.Config.sizeOf, given]
    exact ⟨hc, by simp only [strategies, hc]; rfl⟩

/-- C55, a gap: a configuration with bounds of different kinds, or with an empty list of maxima, is accepted, and deriving
its parameters fails. -/
theorem C55_mixed_bounds :
    let c : Multi Unit Unit := { minSum := some [.num 0, .num 1], maxSum := some [] }
    let c' : Multi Unit Unit := { minSum := some [.seq [0, 1]], maxSum := some [.num 3] }
    let blueprint : Params Unit Unit Unit := ⟨none, none, none, none, none, (), ()⟩
    c.check = .ok 2 ∧ c.sums blueprint 0 = .error .indexError ∧ c'.check = .ok 1 ∧
    c'.sums blueprint 0 = .error .typeError := ⟨rfl, rfl, rfl, rfl⟩

/-- A configuration with two columns and three attributes given. -/
example :
    let mn := some [SumVal.seq [0, 1], .seq [0, 0]]
    let mx := some [SumVal.seq [3, 4], .seq [5, 6]]
    let c : Multi Bool Unit := ⟨some [1, 2], none, mn, mx, some [true, false], none⟩
    c.check = .ok 2 ∧ SameKind c.minSum c.maxSum ∧
    (c.get (⟨some 7, some 8, none, none, none, (), ()⟩ : Params Bool Unit Unit) 1).toOption.map
      (fun e => (e.1.l0, e.1.linf, e.1.noise, e.2)) =
        some (some 2, some 8, some false, [(some 0, some 5), (some 0, some 6)]) := by
  refine ⟨rfl, ?_, rfl⟩
  intro l l' h h' _
  cases h; cases h'
  exact ⟨by simp, Or.inl (by simp [SumVal.isSeq])⟩

example : (({ l0 := some [1, 2], linf := some [1] } : Multi Unit Unit).check) = .error .valueError := rfl

end PDP.Analysis.Config
