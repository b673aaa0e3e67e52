import Verif.Analysis.Poisson
import Verif.Analysis.PerPartition
import Verif.Engine.Combiners
import Mathlib.Data.List.Forall2
import Mathlib.Algebra.BigOperators.Group.List.Lemmas

/-!
# The compound combiner of the utility analysis (`analysis/per_partition_combiners.py:351-471`)
-/

set_option linter.unusedVariables false

namespace PDP.Analysis

open PDP.Engine (MergeTree)

/-! ### Model -/

/-- The sum of the values of a user: a number, or one number per column (`PreaggregatedData`,
`per_partition_combiners.py:34`). -/
inductive Val where
  | scalar (x : ℚ)
  | cols (xs : List ℚ)
deriving DecidableEq

/-- `PreaggregatedData` (`per_partition_combiners.py:32-34`): one user of the partition. -/
structure Data where
  count : ℕ
  sum : Val
  nPartitions : ℕ
deriving DecidableEq

inductive Err where
  | indexError
  | attributeError
  | typeError
deriving DecidableEq

instance {A : Type} [DecidableEq A] : DecidableEq (Except Err A) := fun a b =>
  match a, b with
  | .ok x, .ok y => if h : x = y then isTrue (by rw [h]) else isFalse (by simpa using h)
  | .error x, .error y => if h : x = y then isTrue (by rw [h]) else isFalse (by simpa using h)
  | .ok _, .error _ => isFalse (by simp)
  | .error _, .ok _ => isFalse (by simp)

/-- `SumOfRandomVariablesMoments` (`per_partition_combiners.py:68-82`): count, expectation, variance, third moment. -/
structure Moments where
  count : ℕ
  exp : ℚ
  var : ℚ
  third : ℚ
deriving DecidableEq

/-- `SumOfRandomVariablesMoments.__add__` (`per_partition_combiners.py:76-82`). -/
def Moments.add (a b : Moments) : Moments := ⟨a.count + b.count, a.exp + b.exp, a.var + b.var, a.third + b.third⟩

/-- `_probabilities_to_moments` (`per_partition_combiners.py:85-94`). -/
def toMoments (ps : List ℚ) : Moments :=
  let m := momentsOf ps
  ⟨ps.length, m.1, m.2.1, m.2.2⟩

/-- Internal combiners with the parameters which matter to them.  `keep n` is `probability_of_keep(n)` of the partition
selection strategy (PyDP); the noise standard deviation is a constant of the combiner and is left out. -/
inductive Comb where
  | raw
  | selection (l0 : ℕ) (keep : ℕ → ℚ)
  | sum (column : Option ℕ) (lo hi : ℚ) (l0 : ℕ)
  | count (linf l0 : ℕ)
  | idCount (l0 : ℕ)

/-- Accumulators of the internal combiners. -/
inductive Acc where
  | raw (ids count : ℕ)
  | selection (probs : Option (List ℚ)) (moments : Option Moments)
  | sum (a : SumAcc)
deriving DecidableEq

/-- The sparse representation: three lists (`SparseAccumulatorType`). -/
structure Sparse where
  counts : List ℕ
  sums : List Val
  parts : List ℕ
deriving DecidableEq

/-- `_merge_list` (`per_partition_combiners.py:163-173`). -/
def mergeList {A : Type} (a b : List A) : List A := if a.length ≥ b.length then a ++ b else b ++ a

/-- `_merge_partition_selection_accumulators` (`per_partition_combiners.py:176-190`). -/
def mergeSelection (a b : Option (List ℚ) × Option Moments) : Option (List ℚ) × Option Moments :=
  let viaMoments : Option (List ℚ) × Option Moments :=
    let m1 := match a.2 with | some m => m | none => toMoments (a.1.getD [])
    let m2 := match b.2 with | some m => m | none => toMoments (b.1.getD [])
    (none, some (m1.add m2))
  match a.1, b.1 with
  | some p, some q => if p.length + q.length ≤ 100 then (some (mergeList p q), none) else viaMoments
  | _, _ => viaMoments

/-- The array of values a `SumCombiner` works on (`per_partition_combiners.py:236-242`).  `np.array([])` has one dimension
only, so taking a column of it is an `IndexError`; so is a column which does not exist. -/
def columnOf (column : Option ℕ) (sums : List Val) : Except Err (List ℚ) :=
  match column with
  | none => sums.mapM fun v => match v with | .scalar x => .ok x | .cols _ => .error .typeError
  | some i =>
    if sums = [] then .error .indexError
    else sums.mapM fun v => match v with
      | .scalar _ => .error .indexError
      | .cols xs => match xs[i]? with | some x => .ok x | none => .error .indexError

/-- `create_accumulator` of the internal combiners on the three arrays: `RawStatisticsCombiner` (`:356-360`),
`PartitionSelectionCombiner` (`:201-211`), `SumCombiner` (`:246-277`), `CountCombiner` (`:312-319`),
`PrivacyIdCountCombiner` (`:336-344`). -/
def Comb.create (c : Comb) (s : Sparse) : Except Err Acc :=
  match c with
  | .raw => .ok (.raw s.counts.length s.counts.sum)
  | .selection l0 _ =>
    let r := mergeSelection (some (s.parts.map (probKeep l0)), none) (some [], none)
    .ok (.selection r.1 r.2)
  | .sum column lo hi l0 => do
    let xs ← columnOf column s.sums
    return .sum (sumAccOf lo hi l0 (xs.zip s.parts))
  | .count linf l0 => .ok (.sum (sumAccOf 0 linf l0 ((s.counts.map fun c : ℕ => (c : ℚ)).zip s.parts)))
  | .idCount l0 =>
    .ok (.sum (sumAccOf 0 1 l0 ((s.counts.map fun c : ℕ => (if c > 0 then 1 else 0 : ℚ)).zip s.parts)))

def SumAcc.add (a b : SumAcc) : SumAcc :=
  ⟨a.sum + b.sum, a.clipMin + b.clipMin, a.clipMax + b.clipMax, a.expL0 + b.expL0, a.varL0 + b.varL0⟩

/-- `merge_accumulators` of the internal combiners (`per_partition_combiners.py:56-58`, `:213-217`).  Accumulators of
different combiners are never merged. -/
def Acc.merge : Acc → Acc → Acc
  | .raw i c, .raw j d => .raw (i + j) (c + d)
  | .selection p m, .selection q n => let r := mergeSelection (p, m) (q, n); .selection r.1 r.2
  | .sum a, .sum b => .sum (a.add b)
  | a, _ => a

/-- The dense representation: number of merged rows and one accumulator per combiner. -/
abbrev Dense := ℕ × List Acc

/-- Accumulator of the compound combiner. -/
abbrev State := Option Sparse × Option Dense

/-- `CompoundCombiner.create_accumulator` (`per_partition_combiners.py:398-408`); `none` is the empty input of a public
partition. -/
def createState : Option Data → State
  | none => (some ⟨[], [], []⟩, none)
  | some d => (some ⟨[d.count], [d.sum], [d.nPartitions]⟩, none)

/-- `_to_dense` (`per_partition_combiners.py:410-421`). -/
def toDense (combs : List Comb) (s : Sparse) : Except Err Dense := do
  let accs ← combs.mapM fun c => c.create s
  return (s.counts.length, accs)

/-- `_merge_sparse` (`per_partition_combiners.py:423-428`). -/
def mergeSparse : Option Sparse → Option Sparse → Option Sparse
  | none, b => b
  | a, none => a
  | some a, some b => some ⟨mergeList a.counts b.counts, mergeList a.sums b.sums, mergeList a.parts b.parts⟩

/-- `_merge_dense` (`per_partition_combiners.py:430-435`) with `CompoundCombiner.merge_accumulators`
(`combiners.py:755-764`). -/
def mergeDense : Option Dense → Option Dense → Option Dense
  | none, b => b
  | a, none => a
  | some a, some b => some (a.1 + b.1, List.zipWith Acc.merge a.2 b.2)

/-- `CompoundCombiner.merge_accumulators` (`per_partition_combiners.py:437-465`). -/
def mergeState (combs : List Comb) (a b : State) : Except Err State :=
  let sparse := mergeSparse a.1 b.1
  let dense := mergeDense a.2 b.2
  match sparse with
  | some s =>
    if s.counts.length > 2 * combs.length then do
      let d ← toDense combs s
      return (none, mergeDense dense (some d))
    else .ok (sparse, dense)
  | none => .ok (sparse, dense)

/-- Results of the internal combiners. -/
inductive Metric where
  | raw (ids count : ℕ)
  | probability (p : ℚ)
  | sum (a : SumAcc)
deriving DecidableEq

/-- The sum over `enumerate(pmf.probabilities, pmf.start)` (`per_partition_combiners.py:137-140`). -/
def keepProbability (keep : ℕ → ℚ) (start : ℕ) (pmf : List ℚ) : ℚ :=
  (pmf.zipIdx start).foldl (fun p e => p + e.1 * keep e.2) 0

/-- `compute_metrics` of the internal combiners (`per_partition_combiners.py:219-227`, `:279-290`, `:362-364`).  `approx` is
the normal approximation from moments (`compute_pmf_approximation`, it returns the first index and the probabilities).
With an empty list of probabilities `moments` is `None` and has no attribute `variance`. -/
def Comb.metric (approx : Moments → ℕ × List ℚ) (c : Comb) (a : Acc) : Except Err Metric :=
  match c, a with
  | .selection _ keep, .selection probs moments =>
    match probs, moments with
    | some (p :: ps), _ => .ok (.probability (keepProbability keep 0 (computePmf (p :: ps))))
    | _, some m => .ok (.probability (keepProbability keep (approx m).1 (approx m).2))
    | _, none => .error .attributeError
  | _, .raw i c => .ok (.raw i c)
  | _, .sum a => .ok (.sum a)
  | _, .selection _ _ => .error .typeError

/-- First half of `CompoundCombiner.compute_metrics` (`per_partition_combiners.py:467-471`).  `if sparse:` tests a tuple of
three lists, which is true even when they are empty. -/
def finalDense (combs : List Comb) (st : State) : Except Err (Option Dense) :=
  match st.1 with
  | some s => do
    let d ← toDense combs s
    return mergeDense st.2 (some d)
  | none => .ok st.2

/-- `CompoundCombiner.compute_metrics` (`per_partition_combiners.py:467-471` and `combiners.py:766-773`). -/
def computeMetrics (approx : Moments → ℕ × List ℚ) (combs : List Comb) (st : State) : Except Err (List Metric) := do
  match ← finalDense combs st with
  | none => .error .typeError
  | some d => (combs.zip d.2).mapM fun ca => ca.1.metric approx ca.2

/-- Merging along a tree. -/
def evalTree (combs : List Comb) : MergeTree (Option Data) → Except Err State
  | .leaf d => .ok (createState d)
  | .node l r => do
    let a ← evalTree combs l
    let b ← evalTree combs r
    mergeState combs a b

/-- The whole computation for a partition. -/
def analyse (approx : Moments → ℕ × List ℚ) (combs : List Comb) (t : MergeTree (Option Data)) :
    Except Err (List Metric) := do
  let st ← evalTree combs t
  computeMetrics approx combs st

/-! ### Specification: the metrics of a list of users, computed at once -/

/-- The value of a user seen by a `SUM` combiner. -/
def Data.value (column : Option ℕ) (d : Data) : ℚ :=
  match column, d.sum with
  | none, .scalar x => x
  | some i, .cols xs => xs.getD i 0
  | _, _ => 0

/-- Exact distribution of the number of users for at most 100 users, normal approximation from the exact moments beyond. -/
def specMetric (approx : Moments → ℕ × List ℚ) (users : List Data) : Comb → Metric
  | .raw => .raw users.length (users.map Data.count).sum
  | .selection l0 keep =>
    let ps := users.map fun u => probKeep l0 u.nPartitions
    if users.length ≤ 100 then
      .probability ((List.range (users.length + 1)).map fun k => successes ps k * keep k).sum
    else
      let m := approx ⟨users.length, ps.sum, (ps.map fun p => p * (1 - p)).sum, (ps.map fun p => p * (1 - p) * (1 - 2 * p)).sum⟩
      .probability ((m.2.zipIdx m.1).map fun e => e.1 * keep e.2).sum
  | .sum column lo hi l0 => .sum (sumAccOf lo hi l0 (users.map fun u => (u.value column, u.nPartitions)))
  | .count linf l0 => .sum (sumAccOf 0 linf l0 (users.map fun u => ((u.count : ℚ), u.nPartitions)))
  | .idCount l0 => .sum (sumAccOf 0 1 l0 (users.map fun u => ((if u.count > 0 then 1 else 0 : ℚ), u.nPartitions)))

/-- The values fit the combiner: numbers for a single column, enough columns otherwise. -/
def Comb.Fits : Comb → Data → Prop
  | .sum none _ _ _, d => ∃ x, d.sum = .scalar x
  | .sum (some i) _ _ _, d => ∃ xs, d.sum = .cols xs ∧ i < xs.length
  | _, _ => True

/-- The combiner analyses one of several columns. -/
def Comb.multiColumn : Comb → Bool
  | .sum (some _) _ _ _ => true
  | _ => false

def Comb.isSelection : Comb → Bool
  | .selection _ _ => true
  | _ => false

/-! ### Lemmas -/

theorem mergeList_perm {A : Type} (a b : List A) : (mergeList a b).Perm (a ++ b) := by
  unfold mergeList; split_ifs
  · exact List.Perm.refl _
  · exact List.perm_append_comm

theorem mergeList_map {A B : Type} (f : A → B) (a b : List A) :
    mergeList (a.map f) (b.map f) = (mergeList a b).map f := by
  unfold mergeList
  simp only [List.length_map]
  split_ifs <;> simp

/-- The three lists of a list of users. -/
def Sparse.of (users : List Data) : Sparse := ⟨users.map Data.count, users.map Data.sum, users.map Data.nPartitions⟩

theorem mergeSparse_of (a b : List Data) :
    mergeSparse (some (Sparse.of a)) (some (Sparse.of b)) = some (Sparse.of (mergeList a b)) := by
  simp only [mergeSparse, Sparse.of, mergeList_map]

theorem momentsOf_append (ps qs : List ℚ) : toMoments (ps ++ qs) = (toMoments ps).add (toMoments qs) := by
  simp [toMoments, momentsOf, Moments.add]

theorem toMoments_perm {ps qs : List ℚ} (h : ps.Perm qs) : toMoments ps = toMoments qs := by
  simp only [toMoments, momentsOf, h.length_eq, h.sum_eq, (h.map _).sum_eq]

theorem sumAccOf_append (lo hi : ℚ) (l0 : ℕ) (a b : List (ℚ × ℕ)) :
    sumAccOf lo hi l0 (a ++ b) = (sumAccOf lo hi l0 a).add (sumAccOf lo hi l0 b) := by
  simp [sumAccOf, SumAcc.add]

theorem sumAccOf_perm (lo hi : ℚ) (l0 : ℕ) {a b : List (ℚ × ℕ)} (h : a.Perm b) :
    sumAccOf lo hi l0 a = sumAccOf lo hi l0 b := by
  simp only [sumAccOf, (h.map _).sum_eq]

/-- What a selection accumulator must be for users with these probabilities. -/
def RepSel (ps : List ℚ) (a : Option (List ℚ) × Option Moments) : Prop :=
  if ps.length ≤ 100 then ∃ qs, qs.Perm ps ∧ a = (some qs, none) else a = (none, some (toMoments ps))

theorem RepSel.perm {ps qs : List ℚ} (h : ps.Perm qs) {a} (ha : RepSel ps a) : RepSel qs a := by
  unfold RepSel at *
  rw [← h.length_eq, ← toMoments_perm h]
  split_ifs at ha ⊢ with hl
  · obtain ⟨rs, hr, rfl⟩ := ha; exact ⟨rs, hr.trans h, rfl⟩
  · exact ha

theorem RepSel.moments {ps : List ℚ} {a} (ha : RepSel ps a) :
    (match a.2 with | some m => m | none => toMoments (a.1.getD [])) = toMoments ps := by
  unfold RepSel at ha
  split_ifs at ha with hl
  · obtain ⟨rs, hr, rfl⟩ := ha; exact toMoments_perm hr
  · subst ha; rfl

theorem RepSel.merge {ps qs : List ℚ} {a b} (ha : RepSel ps a) (hb : RepSel qs b) :
    RepSel (ps ++ qs) (mergeSelection a b) := by
  have h1 := ha.moments
  have h2 := hb.moments
  unfold mergeSelection
  dsimp only
  rw [h1, h2, ← momentsOf_append]
  unfold RepSel at ha hb ⊢
  rw [List.length_append]
  by_cases hp : ps.length ≤ 100
  · rw [if_pos hp] at ha
    obtain ⟨ps', hps, rfl⟩ := ha
    by_cases hq : qs.length ≤ 100
    · rw [if_pos hq] at hb
      obtain ⟨qs', hqs, rfl⟩ := hb
      dsimp only
      rw [hps.length_eq, hqs.length_eq]
      split_ifs with h
      · exact ⟨_, (mergeList_perm _ _).trans (hps.append hqs), rfl⟩
      · rfl
    · rw [if_neg hq] at hb; subst hb
      rw [if_neg (by omega)]
  · rw [if_neg hp] at ha; subst ha
    rw [if_neg (by omega)]

/-- An accumulator represents a list of users. -/
def Comb.Rep (c : Comb) (users : List Data) (a : Acc) : Prop :=
  match c with
  | .raw => a = .raw users.length (users.map Data.count).sum
  | .selection l0 _ => ∃ p m, a = .selection p m ∧ RepSel (users.map fun u => probKeep l0 u.nPartitions) (p, m)
  | .sum column lo hi l0 => a = .sum (sumAccOf lo hi l0 (users.map fun u => (u.value column, u.nPartitions)))
  | .count linf l0 => a = .sum (sumAccOf 0 linf l0 (users.map fun u => ((u.count : ℚ), u.nPartitions)))
  | .idCount l0 => a = .sum (sumAccOf 0 1 l0 (users.map fun u => ((if u.count > 0 then 1 else 0 : ℚ), u.nPartitions)))

theorem Comb.Rep.perm {c : Comb} {us vs : List Data} (h : us.Perm vs) {a : Acc} (ha : c.Rep us a) : c.Rep vs a := by
  cases c with
  | raw => simp only [Comb.Rep] at *; rw [ha, h.length_eq, (h.map _).sum_eq]
  | selection l0 keep =>
    obtain ⟨p, m, rfl, hr⟩ := ha
    exact ⟨p, m, rfl, hr.perm (h.map _)⟩
  | sum col lo hi l0 => simp only [Comb.Rep] at *; rw [ha, sumAccOf_perm _ _ _ (h.map _)]
  | count linf l0 => simp only [Comb.Rep] at *; rw [ha, sumAccOf_perm _ _ _ (h.map _)]
  | idCount l0 => simp only [Comb.Rep] at *; rw [ha, sumAccOf_perm _ _ _ (h.map _)]

theorem Comb.Rep.merge {c : Comb} {us vs : List Data} {a b : Acc} (ha : c.Rep us a) (hb : c.Rep vs b) :
    c.Rep (us ++ vs) (a.merge b) := by
  cases c with
  | raw => simp only [Comb.Rep] at *; rw [ha, hb]; simp [Acc.merge]
  | selection l0 keep =>
    obtain ⟨p, m, rfl, hr⟩ := ha
    obtain ⟨q, n, rfl, hs⟩ := hb
    refine ⟨_, _, rfl, ?_⟩
    rw [List.map_append]
    exact hr.merge hs
  | sum col lo hi l0 => simp only [Comb.Rep] at *; rw [ha, hb, List.map_append, sumAccOf_append]; rfl
  | count linf l0 => simp only [Comb.Rep] at *; rw [ha, hb, List.map_append, sumAccOf_append]; rfl
  | idCount l0 => simp only [Comb.Rep] at *; rw [ha, hb, List.map_append, sumAccOf_append]; rfl

theorem mapM_ok {A B : Type} {f : A → Except Err B} {g : A → B} : ∀ (l : List A), (∀ x ∈ l, f x = .ok (g x)) →
    l.mapM f = .ok (l.map g)
  | [], _ => rfl
  | x :: l, h => by
    rw [List.mapM_cons, h x (by simp), mapM_ok l fun y hy => h y (by simp [hy])]; rfl

theorem zip_map_map {A B C : Type} (f : A → B) (g : A → C) (l : List A) :
    (l.map f).zip (l.map g) = l.map fun x => (f x, g x) := by
  induction l with
  | nil => rfl
  | cons x l ih => simp [ih]

theorem columnOf_fits {column : Option ℕ} {lo hi : ℚ} {l0 : ℕ} {users : List Data}
    (hf : ∀ u ∈ users, (Comb.sum column lo hi l0).Fits u) (hne : column = none ∨ users ≠ []) :
    columnOf column (users.map Data.sum) = .ok (users.map (Data.value column)) := by
  cases column with
  | none =>
    simp only [columnOf, List.mapM_map]
    apply mapM_ok
    intro u hu
    obtain ⟨x, hx⟩ := hf u hu
    simp [hx, Data.value]
  | some i =>
    have hne' : users ≠ [] := by rcases hne with h | h; · cases h
                                 · exact h
    simp only [columnOf, List.mapM_map]
    rw [if_neg (by simpa using hne')]
    apply mapM_ok
    intro u hu
    obtain ⟨xs, hx, hi⟩ := hf u hu
    simp [hx, Data.value, hi]

theorem Comb.create_rep (c : Comb) (users : List Data) (hf : ∀ u ∈ users, c.Fits u)
    (hne : c.multiColumn = false ∨ users ≠ []) : ∃ a, c.create (Sparse.of users) = .ok a ∧ c.Rep users a := by
  cases c with
  | raw => exact ⟨_, rfl, by simp [Comb.Rep, Sparse.of]⟩
  | selection l0 keep =>
    refine ⟨_, rfl, _, _, rfl, ?_⟩
    simp only [Sparse.of, List.map_map]
    rw [show (users.map fun u => probKeep l0 u.nPartitions) = users.map (probKeep l0 ∘ Data.nPartitions) from rfl]
    generalize users.map (probKeep l0 ∘ Data.nPartitions) = ps
    simp only [mergeSelection, List.length_nil, add_zero]
    unfold RepSel
    split_ifs with h
    · exact ⟨_, (mergeList_perm _ _).trans (by simp), rfl⟩
    · simp [Moments.add, toMoments, momentsOf]
  | sum col lo hi l0 =>
    have hne' : col = none ∨ users ≠ [] := by
      rcases hne with h | h
      · cases col with
        | none => exact Or.inl rfl
        | some i => simp [Comb.multiColumn] at h
      · exact Or.inr h
    refine ⟨.sum (sumAccOf lo hi l0 (users.map fun u : Data => (u.value col, u.nPartitions))), ?_, rfl⟩
    simp only [Comb.create, Sparse.of]
    rw [columnOf_fits hf hne']
    show Except.ok _ = _
    rw [zip_map_map]
  | count linf l0 =>
    refine ⟨_, rfl, ?_⟩
    simp only [Comb.Rep, Sparse.of, List.map_map]
    rw [zip_map_map]; rfl
  | idCount l0 =>
    refine ⟨_, rfl, ?_⟩
    simp only [Comb.Rep, Sparse.of, List.map_map]
    rw [zip_map_map]; rfl

theorem mapM_forall₂ {A B : Type} {f : A → Except Err B} {R : A → B → Prop} : ∀ (l : List A),
    (∀ x ∈ l, ∃ b, f x = .ok b ∧ R x b) → ∃ bs, l.mapM f = .ok bs ∧ List.Forall₂ R l bs
  | [], _ => ⟨[], rfl, .nil⟩
  | x :: l, h => by
    obtain ⟨b, hb, hr⟩ := h x (by simp)
    obtain ⟨bs, hbs, hrs⟩ := mapM_forall₂ l fun y hy => h y (by simp [hy])
    exact ⟨b :: bs, by rw [List.mapM_cons, hb, hbs]; rfl, .cons hr hrs⟩

/-- The dense part represents a list of users. -/
def RepDense (combs : List Comb) (users : List Data) (d : Dense) : Prop :=
  d.1 = users.length ∧ List.Forall₂ (fun c a => Comb.Rep c users a) combs d.2

theorem toDense_rep (combs : List Comb) (users : List Data) (hf : ∀ c ∈ combs, ∀ u ∈ users, c.Fits u)
    (hne : (∀ c ∈ combs, c.multiColumn = false) ∨ users ≠ []) :
    ∃ d, toDense combs (Sparse.of users) = .ok d ∧ RepDense combs users d := by
  obtain ⟨bs, hbs, hr⟩ := mapM_forall₂ (f := fun c => Comb.create c (Sparse.of users)) (R := fun c a => Comb.Rep c users a)
    combs fun c hc => Comb.create_rep c users (hf c hc) (hne.imp (fun h => h c hc) id)
  refine ⟨(users.length, bs), ?_, rfl, hr⟩
  unfold toDense
  rw [hbs]
  show Except.ok _ = _
  simp [Sparse.of]

theorem forall₂_zipWith_merge {us vs : List Data} : ∀ {combs : List Comb} {as bs : List Acc},
    List.Forall₂ (fun c a => Comb.Rep c us a) combs as → List.Forall₂ (fun c a => Comb.Rep c vs a) combs bs →
    List.Forall₂ (fun c a => Comb.Rep c (us ++ vs) a) combs (List.zipWith Acc.merge as bs)
  | [], _, _, .nil, .nil => .nil
  | c :: cs, _, _, .cons ha has, .cons hb hbs => .cons (ha.merge hb) (forall₂_zipWith_merge has hbs)

/-- The state represents a list of users: the sparse part some of them, the dense part the others. -/
def RepState (combs : List Comb) (users : List Data) (st : State) : Prop :=
  ∃ sp de : List Data, users.Perm (sp ++ de) ∧
    (match st.1 with | none => sp = [] | some s => s = Sparse.of sp) ∧
    (match st.2 with | none => de = [] | some d => RepDense combs de d) ∧ (st.1.isSome ∨ st.2.isSome)

theorem mergeDense_rep {combs : List Comb} {us vs : List Data} {a b : Option Dense}
    (ha : match a with | none => us = [] | some d => RepDense combs us d)
    (hb : match b with | none => vs = [] | some d => RepDense combs vs d) :
    (match mergeDense a b with | none => us ++ vs = [] | some d => RepDense combs (us ++ vs) d) ∧
    ((mergeDense a b).isSome ↔ a.isSome ∨ b.isSome) := by
  cases a with
  | none =>
    simp only at ha; subst ha
    cases b with
    | none => simpa [mergeDense] using hb
    | some d => simpa [mergeDense] using hb
  | some d =>
    cases b with
    | none => simp only at hb; subst hb; simpa [mergeDense] using ha
    | some e =>
      simp only [mergeDense]
      refine ⟨⟨?_, forall₂_zipWith_merge ha.2 hb.2⟩, by simp⟩
      rw [ha.1, hb.1, List.length_append]

theorem mergeSparse_rep {us vs : List Data} {a b : Option Sparse}
    (ha : match a with | none => us = [] | some s => s = Sparse.of us)
    (hb : match b with | none => vs = [] | some s => s = Sparse.of vs) :
    ∃ ws : List Data, ws.Perm (us ++ vs) ∧
      (match mergeSparse a b with | none => ws = [] | some s => s = Sparse.of ws) ∧
      ((mergeSparse a b).isSome ↔ a.isSome ∨ b.isSome) := by
  cases a with
  | none =>
    simp only at ha; subst ha
    cases b with
    | none => exact ⟨vs, by simp, by simpa [mergeSparse] using hb, by simp [mergeSparse]⟩
    | some d => exact ⟨vs, by simp, by simpa [mergeSparse] using hb, by simp [mergeSparse]⟩
  | some d =>
    cases b with
    | none => simp only at hb; subst hb; exact ⟨us, by simp, by simpa [mergeSparse] using ha, by simp [mergeSparse]⟩
    | some e =>
      simp only at ha hb; subst ha hb
      rw [mergeSparse_of]
      exact ⟨mergeList us vs, mergeList_perm _ _, rfl, by simp⟩

theorem mergeState_rep {combs : List Comb} {us vs : List Data} {a b : State}
    (hf : ∀ c ∈ combs, ∀ u ∈ us ++ vs, c.Fits u) (ha : RepState combs us a) (hb : RepState combs vs b) :
    ∃ st, mergeState combs a b = .ok st ∧ RepState combs (us ++ vs) st := by
  obtain ⟨sa, da, hpa, hsa, hda, hia⟩ := ha
  obtain ⟨sb, db, hpb, hsb, hdb, hib⟩ := hb
  obtain ⟨ws, hws, hsp, hsome⟩ := mergeSparse_rep hsa hsb
  obtain ⟨hde, hdsome⟩ := mergeDense_rep hda hdb
  have hperm : (us ++ vs).Perm (ws ++ (da ++ db)) := by
    refine (hpa.append hpb).trans ?_
    have h1 : ((sa ++ da) ++ (sb ++ db)).Perm ((sa ++ sb) ++ (da ++ db)) := by
      rw [List.append_assoc, List.append_assoc]
      refine List.Perm.append_left _ ?_
      rw [← List.append_assoc, ← List.append_assoc]
      exact List.Perm.append_right _ List.perm_append_comm
    exact h1.trans (hws.symm.append_right _)
  unfold mergeState
  dsimp only
  rcases hm : mergeSparse a.1 b.1 with _ | s
  · rw [hm] at hsp hsome
    refine ⟨_, rfl, ws, da ++ db, hperm, hsp, hde, ?_⟩
    right
    have : ¬ (a.1.isSome ∨ b.1.isSome) := by rw [← hsome]; simp
    push Not at this
    rcases hia with h | h
    · exact absurd h this.1
    · exact hdsome.2 (Or.inl h)
  · rw [hm] at hsp hsome
    dsimp only at hsp ⊢
    subst hsp
    split_ifs with hlen
    · have hne : ws ≠ [] := by
        rintro rfl; simp [Sparse.of] at hlen
      obtain ⟨d, hd, hrep⟩ := toDense_rep combs ws
        (fun c hc u hu => hf c hc u (hperm.mem_iff.2 (by simp [hu]))) (Or.inr hne)
      obtain ⟨h1, h2⟩ := mergeDense_rep (b := some d) hde hrep
      refine ⟨(none, mergeDense (mergeDense a.2 b.2) (some d)), ?_, [], (da ++ db) ++ ws, ?_, rfl, h1, ?_⟩
      · rw [hd]; rfl
      · exact hperm.trans List.perm_append_comm
      · right; exact h2.2 (Or.inr rfl)
    · exact ⟨_, rfl, ws, da ++ db, hperm, rfl, hde, Or.inl rfl⟩

/-- The users among the leaves; `none` is the empty input added for public partitions. -/
def usersOf (t : MergeTree (Option Data)) : List Data := t.leaves.filterMap id

theorem evalTree_rep (combs : List Comb) : ∀ (t : MergeTree (Option Data)),
    (∀ c ∈ combs, ∀ u ∈ usersOf t, c.Fits u) → ∃ st, evalTree combs t = .ok st ∧ RepState combs (usersOf t) st
  | .leaf none, _ => ⟨_, rfl, [], [], by simp [usersOf, MergeTree.leaves], rfl, rfl, Or.inl rfl⟩
  | .leaf (some d), _ => ⟨_, rfl, [d], [], by simp [usersOf, MergeTree.leaves], rfl, rfl, Or.inl rfl⟩
  | .node l r, hf => by
    have hu : usersOf (.node l r) = usersOf l ++ usersOf r := by simp [usersOf, MergeTree.leaves]
    rw [hu] at hf ⊢
    obtain ⟨a, ha, hra⟩ := evalTree_rep combs l fun c hc u h => hf c hc u (by simp [h])
    obtain ⟨b, hb, hrb⟩ := evalTree_rep combs r fun c hc u h => hf c hc u (by simp [h])
    obtain ⟨st, hst, hr⟩ := mergeState_rep hf hra hrb
    refine ⟨st, ?_, hr⟩
    simp only [evalTree, ha, hb]
    exact hst

theorem foldl_add_sum {A : Type} (f : A → ℚ) : ∀ (l : List A) (x : ℚ), l.foldl (fun p e => p + f e) x = x + (l.map f).sum
  | [], x => by simp
  | e :: l, x => by rw [List.foldl_cons, foldl_add_sum f l]; simp [add_assoc]

theorem keepProbability_pmf (keep : ℕ → ℚ) (ps : List ℚ) :
    keepProbability keep 0 (computePmf ps) =
      ((List.range (ps.length + 1)).map fun k => successes ps k * keep k).sum := by
  unfold keepProbability
  rw [foldl_add_sum (fun e : ℚ × ℕ => e.1 * keep e.2), zero_add]
  congr 1
  apply List.ext_getElem
  · simp [(C42_pmf ps).1]
  · intro k h1 h2
    simp only [List.getElem_map, List.getElem_zipIdx, List.getElem_range, zero_add]
    have hk : k ≤ ps.length := by simp at h2; omega
    have := (C42_pmf ps).2 k hk
    rw [List.getElem?_eq_some_iff] at this
    obtain ⟨_, hv⟩ := this
    rw [hv]

theorem metric_of_rep (approx : Moments → ℕ × List ℚ) (c : Comb) (users : List Data) (a : Acc) (h : c.Rep users a)
    (hne : c.isSelection = false ∨ users ≠ []) : c.metric approx a = .ok (specMetric approx users c) := by
  cases c with
  | raw => simp only [Comb.Rep] at h; subst h; rfl
  | sum col lo hi l0 => simp only [Comb.Rep] at h; subst h; rfl
  | count linf l0 => simp only [Comb.Rep] at h; subst h; rfl
  | idCount l0 => simp only [Comb.Rep] at h; subst h; rfl
  | selection l0 keep =>
    obtain ⟨p, m, rfl, hr⟩ := h
    have hne' : users ≠ [] := by
      rcases hne with h | h
      · simp [Comb.isSelection] at h
      · exact h
    simp only [specMetric]
    unfold RepSel at hr
    rw [List.length_map] at hr
    split_ifs at hr ⊢ with hl
    · obtain ⟨qs, hq, heq⟩ := hr
      cases heq
      rcases qs with _ | ⟨q, qs⟩
      · have := hq.length_eq
        simp at this
        exact absurd (List.eq_nil_of_length_eq_zero this.symm) hne'
      · simp only [Comb.metric]
        rw [C42_order _ _ hq, keepProbability_pmf, List.length_map]
    · cases hr
      simp only [Comb.metric, keepProbability, toMoments, momentsOf, List.length_map]
      rw [foldl_add_sum (fun e : ℚ × ℕ => e.1 * keep e.2), zero_add]

theorem mapM_zip_metrics (approx : Moments → ℕ × List ℚ) (users : List Data) : ∀ (combs : List Comb) (as : List Acc),
    List.Forall₂ (fun c a => Comb.Rep c users a) combs as → (∀ c ∈ combs, c.isSelection = false ∨ users ≠ []) →
    ((combs.zip as).mapM fun ca => ca.1.metric approx ca.2) = .ok (combs.map (specMetric approx users))
  | [], _, .nil, _ => rfl
  | c :: cs, _, .cons (b := a) (l₂ := as) h hs, hne => by
    rw [List.zip_cons_cons, List.mapM_cons, metric_of_rep approx c users a h (hne c (by simp)),
      mapM_zip_metrics approx users cs as hs fun c hc => hne c (by simp [hc])]
    rfl

theorem mergeList_ne_nil {A : Type} {a b : List A} (h : a ≠ [] ∨ b ≠ []) : mergeList a b ≠ [] := by
  intro he
  have := (mergeList_perm a b).length_eq
  rw [he] at this
  simp at this
  rcases h with h | h
  · exact h (List.eq_nil_of_length_eq_zero (by omega))
  · exact h (List.eq_nil_of_length_eq_zero (by omega))

/-- Without empty inputs the sparse part is never an empty list. -/
theorem evalTree_sparse_ne (combs : List Comb) : ∀ (t : MergeTree (Option Data)) (st : State), none ∉ t.leaves →
    evalTree combs t = .ok st → ∀ s, st.1 = some s → s.counts ≠ []
  | .leaf none, st, h, _ => by simp [MergeTree.leaves] at h
  | .leaf (some d), st, _, he => by
    intro s hs
    simp only [evalTree, Except.ok.injEq] at he
    subst he
    simp only [createState, Option.some.injEq] at hs
    subst hs
    simp
  | .node l r, st, h, he => by
    intro s hs
    simp only [MergeTree.leaves, List.mem_append, not_or] at h
    simp only [evalTree] at he
    rcases hl : evalTree combs l with e | a
    · rw [hl] at he; cases he
    rcases hr : evalTree combs r with e | b
    · rw [hl, hr] at he; cases he
    rw [hl, hr] at he
    have ihl := evalTree_sparse_ne combs l a h.1 hl
    have ihr := evalTree_sparse_ne combs r b h.2 hr
    change mergeState combs a b = _ at he
    unfold mergeState at he
    dsimp only at he
    have hm : ∀ s', mergeSparse a.1 b.1 = some s' → s'.counts ≠ [] := by
      intro s' hs'
      rcases ha : a.1 with _ | x
      · rw [ha] at hs'; simp only [mergeSparse] at hs'; exact ihr _ hs'
      · rcases hb : b.1 with _ | y
        · rw [ha, hb] at hs'; simp only [mergeSparse, Option.some.injEq] at hs'; subst hs'; exact ihl _ ha
        · rw [ha, hb] at hs'; simp only [mergeSparse, Option.some.injEq] at hs'; subst hs'
          exact mergeList_ne_nil (Or.inl (ihl _ ha))
    rcases hms : mergeSparse a.1 b.1 with _ | s'
    · rw [hms] at he; cases he; cases hs
    · rw [hms] at he
      dsimp only at he
      split_ifs at he with hlen
      · rcases hd : toDense combs s' with e | d
        · rw [hd] at he; cases he
        · rw [hd] at he; cases he; cases hs
      · cases he
        cases hs
        exact hm _ hms

theorem specMetric_perm (approx : Moments → ℕ × List ℚ) {us vs : List Data} (h : us.Perm vs) (c : Comb) :
    specMetric approx us c = specMetric approx vs c := by
  cases c with
  | raw => simp only [specMetric, h.length_eq, (h.map _).sum_eq]
  | sum col lo hi l0 => simp only [specMetric]; rw [sumAccOf_perm _ _ _ (h.map _)]
  | count linf l0 => simp only [specMetric]; rw [sumAccOf_perm _ _ _ (h.map _)]
  | idCount l0 => simp only [specMetric]; rw [sumAccOf_perm _ _ _ (h.map _)]
  | selection l0 keep =>
    have hp := h.map fun u => probKeep l0 u.nPartitions
    simp only [specMetric]
    rw [h.length_eq, hp.sum_eq, (hp.map _).sum_eq, (hp.map fun p => p * (1 - p) * (1 - 2 * p)).sum_eq]
    have hk := keepProbability_pmf keep (us.map fun u => probKeep l0 u.nPartitions)
    have hk' := keepProbability_pmf keep (vs.map fun u => probKeep l0 u.nPartitions)
    rw [C42_order _ _ hp] at hk
    rw [List.length_map, h.length_eq] at hk
    rw [List.length_map] at hk'
    rw [← hk, ← hk']

/-! ### C44 -/

/-- **C44.** Whatever the tree along which the accumulators of the users (and the empty accumulators of public partitions)
are merged, and so whenever the accumulator switches from lists to sums, the result is the one computed from the list of all
users at once.  Hypotheses: the values fit the combiners; a combiner for one of several columns never meets an empty
accumulator; private partition selection has at least one user. -/
theorem C44_metrics (approx : Moments → ℕ × List ℚ) (combs : List Comb) (t : MergeTree (Option Data))
    (hf : ∀ c ∈ combs, ∀ u ∈ usersOf t, c.Fits u)
    (hcol : (∀ c ∈ combs, c.multiColumn = false) ∨ none ∉ t.leaves)
    (hsel : (∀ c ∈ combs, c.isSelection = false) ∨ usersOf t ≠ []) :
    analyse approx combs t = .ok (combs.map (specMetric approx (usersOf t))) := by
  obtain ⟨st, hst, sp, de, hp, hsp, hde, hsome⟩ := evalTree_rep combs t hf
  have hspne : (∀ c ∈ combs, c.multiColumn = false) ∨ (st.1.isSome → sp ≠ []) := by
    refine hcol.imp id fun h hs => ?_
    obtain ⟨s, hs⟩ := Option.isSome_iff_exists.1 hs
    rw [hs] at hsp
    have := evalTree_sparse_ne combs t st h hst s hs
    rintro rfl
    exact this (by rw [hsp]; rfl)
  unfold analyse
  rw [hst]
  show computeMetrics approx combs st = _
  have hfinal : ∃ d vs, finalDense combs st = .ok (some d) ∧ (usersOf t).Perm vs ∧ RepDense combs vs d := by
    unfold finalDense
    rcases h1 : st.1 with _ | s
    · rw [h1] at hsp hsome
      simp only at hsp
      subst hsp
      rcases h2 : st.2 with _ | d
      · rw [h2] at hsome; simp at hsome
      · rw [h2] at hde
        exact ⟨d, de, rfl, hp, hde⟩
    · rw [h1] at hsp hspne
      simp only at hsp
      subst hsp
      obtain ⟨d, hd, hr⟩ := toDense_rep combs sp (fun c hc u hu => hf c hc u (hp.mem_iff.2 (by simp [hu])))
        (hspne.imp id fun h => h rfl)
      obtain ⟨h3, h4⟩ := mergeDense_rep (b := some d) hde hr
      dsimp only
      rw [hd]
      obtain ⟨e, he⟩ := Option.isSome_iff_exists.1 (h4.2 (Or.inr rfl))
      rw [he] at h3
      exact ⟨e, de ++ sp, by show Except.ok _ = _; rw [he], hp.trans List.perm_append_comm, h3⟩
  obtain ⟨d, vs, hd, hpv, hr⟩ := hfinal
  unfold computeMetrics
  rw [hd]
  show (combs.zip d.2).mapM _ = _
  rw [mapM_zip_metrics approx vs combs d.2 hr.2]
  · congr 1
    exact List.map_congr_left fun c _ => (specMetric_perm approx hpv c).symm
  · intro c hc
    refine hsel.imp (fun h => h c hc) fun h he => h ?_
    rw [he] at hpv
    exact List.perm_nil.1 hpv

/-- **C44**, as stated: two merge trees with the same users give the same metrics, whatever the order of the users, the
shapes of the trees and the number of empty accumulators mixed in. -/
theorem C44_merge_independence (approx : Moments → ℕ × List ℚ) (combs : List Comb) (t t' : MergeTree (Option Data))
    (hp : (usersOf t).Perm (usersOf t')) (hne : usersOf t ≠ [])
    (hf : ∀ c ∈ combs, ∀ u ∈ usersOf t, c.Fits u)
    (hcol : (∀ c ∈ combs, c.multiColumn = false) ∨ (none ∉ t.leaves ∧ none ∉ t'.leaves)) :
    analyse approx combs t = analyse approx combs t' := by
  rw [C44_metrics approx combs t hf (hcol.imp id And.left) (Or.inr hne),
    C44_metrics approx combs t' (fun c hc u hu => hf c hc u (hp.mem_iff.2 hu)) (hcol.imp id And.right)
      (Or.inr fun h => hne (by rw [h] at hp; exact List.perm_nil.1 hp))]
  congr 1
  exact List.map_congr_left fun c _ => specMetric_perm approx hp c

/-- Accumulators merged one after the other, as `LocalBackend.combine_accumulators_per_key` does. -/
def chain {A : Type} (a : A) (l : List A) : MergeTree A := l.foldl (fun t x => .node t (.leaf x)) (.leaf a)

theorem chain_concat {A : Type} (a : A) (l : List A) (x : A) : chain a (l ++ [x]) = .node (chain a l) (.leaf x) := by
  simp [chain]

theorem chain_leaves {A : Type} (a : A) (l : List A) : (chain a l).leaves = a :: l := by
  induction l using List.reverseRecOn with
  | nil => rfl
  | append_singleton l x ih => rw [chain_concat]; simp [MergeTree.leaves, ih]

theorem create_empty (c : Comb) (h : c.multiColumn = false) : ∃ a, c.create (Sparse.of []) = .ok a :=
  (Comb.create_rep c [] (by simp) (Or.inl h)).imp fun _ h => h.1

theorem toDense_empty_error (combs : List Comb) (h : ∃ c ∈ combs, c.multiColumn = true) :
    toDense combs (Sparse.of []) = .error .indexError := by
  suffices hm : combs.mapM (fun c => Comb.create c (Sparse.of [])) = .error Err.indexError by
    unfold toDense; rw [hm]; rfl
  induction combs with
  | nil => simp at h
  | cons c cs ih =>
    rw [List.mapM_cons]
    by_cases hc : c.multiColumn = true
    · have : c.create (Sparse.of []) = .error Err.indexError := by
        cases c with
        | sum col lo hi l0 =>
          cases col with
          | none => simp [Comb.multiColumn] at hc
          | some i => rfl
        | _ => simp [Comb.multiColumn] at hc
      rw [this]; rfl
    · obtain ⟨a, ha⟩ := create_empty c (by simpa using hc)
      obtain ⟨c', hc', hm'⟩ := h
      have : c' ∈ cs := by
        rcases List.mem_cons.1 hc' with rfl | h
        · exact absurd hm' hc
        · exact h
      rw [ha, ih ⟨c', this, hm'⟩]; rfl

/-- As long as there are at most `2 * len(combiners)` users the accumulator is sparse. -/
theorem chain_sparse (combs : List Comb) (d : Data) : ∀ (ds : List Data), (d :: ds).length ≤ 2 * combs.length →
    evalTree combs (chain (some d) (ds.map some)) = .ok (some (Sparse.of (d :: ds)), none) := by
  intro ds
  induction ds using List.reverseRecOn with
  | nil => intro _; rfl
  | append_singleton ds x ih =>
    intro hlen
    rw [List.map_append, List.map_singleton, chain_concat]
    simp only [evalTree]
    rw [ih (by simp at hlen ⊢; omega)]
    change mergeState combs (some (Sparse.of (d :: ds)), none) (createState (some x)) = _
    have hx : createState (some x) = (some (Sparse.of [x]), none) := rfl
    have hml : mergeList (d :: ds) [x] = d :: (ds ++ [x]) := by simp [mergeList]
    rw [hx]
    unfold mergeState
    rw [mergeSparse_of, hml]
    dsimp only
    rw [if_neg]
    · rfl
    · simp [Sparse.of] at hlen ⊢; omega

/-- The next user makes it dense. -/
theorem chain_dense (combs : List Comb) (d : Data) (ds : List Data) (hlen : (d :: ds).length = 2 * combs.length + 1)
    (hne : combs ≠ []) (hf : ∀ c ∈ combs, ∀ u ∈ d :: ds, c.Fits u) :
    ∃ de, evalTree combs (chain (some d) (ds.map some)) = .ok (none, some de) := by
  rcases List.eq_nil_or_concat ds with rfl | ⟨ds', x, rfl⟩
  · simp at hlen; exact absurd hlen (by simpa using hne)
  rw [List.concat_eq_append] at *
  rw [List.map_append, List.map_singleton, chain_concat]
  simp only [evalTree]
  rw [chain_sparse combs d ds' (by simp at hlen ⊢; omega)]
  change ∃ de, mergeState combs (some (Sparse.of (d :: ds')), none) (createState (some x)) = .ok (none, some de)
  have hx : createState (some x) = (some (Sparse.of [x]), none) := rfl
  have hml : mergeList (d :: ds') [x] = d :: (ds' ++ [x]) := by simp [mergeList]
  rw [hx]
  unfold mergeState
  rw [mergeSparse_of, hml]
  dsimp only
  rw [if_pos (by simp [Sparse.of] at hlen ⊢; omega)]
  obtain ⟨de, hde, _⟩ := toDense_rep combs (d :: (ds' ++ [x])) hf (Or.inr (by simp))
  exact ⟨de, by rw [hde]; rfl⟩

/-- An empty accumulator at the beginning changes nothing. -/
theorem chain_none_first (combs : List Comb) (hne : combs ≠ []) (d : Data) : ∀ ds : List Data,
    evalTree combs (chain none ((d :: ds).map some)) = evalTree combs (chain (some d) (ds.map some)) := by
  intro ds
  induction ds using List.reverseRecOn with
  | nil =>
    show mergeState combs (some (Sparse.of []), none) (some (Sparse.of [d]), none) = .ok (some (Sparse.of [d]), none)
    unfold mergeState
    rw [mergeSparse_of]
    have hml : mergeList [] [d] = [d] := by simp [mergeList]
    rw [hml]
    have hl : 0 < combs.length := List.length_pos_of_ne_nil hne
    dsimp only
    rw [if_neg (by simp [Sparse.of]; omega)]
    rfl
  | append_singleton ds x ih =>
    rw [← List.cons_append, List.map_append, List.map_singleton, chain_concat, List.map_append, List.map_singleton,
      chain_concat]
    simp only [evalTree, ih]

/-- C44, the excluded case: when several columns are analysed, a public partition without data fails with `IndexError`. -/
theorem C44_multi_column_empty_partition (approx : Moments → ℕ × List ℚ) (combs : List Comb)
    (h : ∃ c ∈ combs, c.multiColumn = true) : analyse approx combs (.leaf none) = .error .indexError := by
  show computeMetrics approx combs (some (Sparse.of []), none) = _
  unfold computeMetrics finalDense
  dsimp only
  rw [toDense_empty_error combs h]
  rfl

/-- C44, the excluded case: the probability of selection can not be computed for a partition without users, the analysis
of such a partition fails with `AttributeError`. -/
theorem C44_selection_needs_users (approx : Moments → ℕ × List ℚ) (combs : List Comb)
    (h : ∃ c ∈ combs, c.isSelection = true) (hcol : ∀ c ∈ combs, c.multiColumn = false) :
    analyse approx combs (.leaf none) = .error .attributeError := by
  have key : ∀ cs : List Comb, (∃ c ∈ cs, c.isSelection = true) → (∀ c ∈ cs, c.multiColumn = false) →
      ∃ as, (cs.mapM fun c => c.create (Sparse.of [])) = .ok as ∧
        ((cs.zip as).mapM fun ca => ca.1.metric approx ca.2) = .error .attributeError := by
    intro cs
    induction cs with
    | nil => intro h; simp at h
    | cons c cs ih =>
      intro h hc
      obtain ⟨a, ha⟩ := create_empty c (hc c (by simp))
      have hall : ∀ cs : List Comb, (∀ c ∈ cs, c.multiColumn = false) →
          ∃ as, (cs.mapM fun c => c.create (Sparse.of [])) = .ok as := by
        intro cs
        induction cs with
        | nil => intro _; exact ⟨[], rfl⟩
        | cons c cs ih =>
          intro hc
          obtain ⟨a, ha⟩ := create_empty c (hc c (by simp))
          obtain ⟨as, has⟩ := ih fun c h => hc c (by simp [h])
          exact ⟨a :: as, by rw [List.mapM_cons, ha, has]; rfl⟩
      by_cases hs : c.isSelection = true
      · obtain ⟨as, has⟩ := hall cs fun c h => hc c (by simp [h])
        refine ⟨a :: as, by rw [List.mapM_cons, ha, has]; rfl, ?_⟩
        have hm : c.metric approx a = .error .attributeError := by
          cases c <;> simp [Comb.isSelection] at hs
          simp [Comb.create, Sparse.of, mergeSelection, mergeList] at ha
          subst ha
          rfl
        rw [List.zip_cons_cons, List.mapM_cons, hm]; rfl
      · obtain ⟨as, has, hm⟩ := ih (by
          obtain ⟨d, hd, hds⟩ := h
          rcases List.mem_cons.1 hd with rfl | hd
          · exact absurd hds hs
          · exact ⟨d, hd, hds⟩) fun c h => hc c (by simp [h])
        refine ⟨a :: as, by rw [List.mapM_cons, ha, has]; rfl, ?_⟩
        have hok : ∃ m, c.metric approx a = .ok m := by
          cases c <;> simp [Comb.isSelection] at hs <;> simp [Comb.create] at ha
          · subst ha; exact ⟨_, rfl⟩
          · rename_i col lo hi l0
            cases col with
            | none => simp [columnOf, Sparse.of, bind, Except.bind, pure, Except.pure] at ha; subst ha; exact ⟨_, rfl⟩
            | some i => exact absurd (hc (.sum (some i) lo hi l0) (by simp)) (by simp [Comb.multiColumn])
          · subst ha; exact ⟨_, rfl⟩
          · subst ha; exact ⟨_, rfl⟩
        obtain ⟨m, hok⟩ := hok
        rw [List.zip_cons_cons, List.mapM_cons, hok, hm]; rfl
  obtain ⟨as, h1, h2⟩ := key combs h hcol
  show computeMetrics approx combs (some (Sparse.of []), none) = _
  unfold computeMetrics finalDense toDense
  simp only [h1, bind, Except.bind, pure, Except.pure, mergeDense]
  exact h2

/-- C44, the excluded case: when several columns are analysed, a partition with data and one empty accumulator (there is
one for every public partition) is analysed correctly if the empty accumulator comes first, and fails if it comes after the
accumulator has become dense: the result depends on the order of merging. -/
theorem C44_multi_column_order_dependent (approx : Moments → ℕ × List ℚ) (combs : List Comb)
    (h : ∃ c ∈ combs, c.multiColumn = true) (d : Data) (ds : List Data)
    (hlen : (d :: ds).length = 2 * combs.length + 1) (hf : ∀ c ∈ combs, ∀ u ∈ d :: ds, c.Fits u) :
    analyse approx combs (chain none ((d :: ds).map some)) = .ok (combs.map (specMetric approx (d :: ds))) ∧
    analyse approx combs (chain (some d) (ds.map some ++ [none])) = .error .indexError := by
  have hne : combs ≠ [] := by rintro rfl; simp at h
  constructor
  · have hu : usersOf (chain (some d) (ds.map some)) = d :: ds := by
      simp [usersOf, chain_leaves]
    have := C44_metrics approx combs (chain (some d) (ds.map some)) (by rw [hu]; exact hf)
      (Or.inr (by simp [chain_leaves])) (Or.inr (by rw [hu]; simp))
    rw [hu] at this
    rw [← this]
    unfold analyse
    rw [chain_none_first combs hne]
  · obtain ⟨de, hde⟩ := chain_dense combs d ds hlen hne hf
    unfold analyse
    rw [chain_concat]
    simp only [evalTree, hde]
    show computeMetrics approx combs (some (Sparse.of []), some de) = _
    unfold computeMetrics finalDense
    dsimp only
    rw [toDense_empty_error combs h]
    rfl

/-- Three combiners on seven users: the accumulator becomes dense when the last user is merged. -/
example : usersOf (chain (some ⟨1, .scalar 3, 2⟩) (List.replicate 6 (some ⟨2, .scalar 5, 1⟩))) =
    ⟨1, .scalar 3, 2⟩ :: List.replicate 6 ⟨2, .scalar 5, 1⟩ := by simp [usersOf, chain_leaves]

example : (evalTree [.raw, .sum none 0 4 1, .count 1 1]
      (chain (some ⟨1, .scalar 3, 2⟩) (List.replicate 6 (some ⟨2, .scalar 5, 1⟩)))) =
    .ok (none, some (7, [.raw 7 13, .sum ⟨33, 0, -6, -3 / 2, 9 / 4⟩, .sum ⟨13, 0, -6, -1 / 2, 1 / 4⟩])) := by
  decide +kernel

/-- Two combiners, one of them for the second column, and five users. -/
example : (analyse (fun _ => (0, [])) [.raw, .sum (some 1) 0 4 1]
      (chain (some ⟨1, .cols [3, 4], 2⟩) (List.replicate 4 (some ⟨2, .cols [1, 5], 1⟩) ++ [none]))) = .error .indexError := by
  decide +kernel

/-- With private partition selection: 3 users, the exact distribution. -/
example : analyse (fun _ => (0, [])) [.selection 1 fun n => if n ≥ 2 then 1 else 0]
      (chain (some ⟨1, .scalar 0, 2⟩) [some ⟨1, .scalar 0, 2⟩, some ⟨1, .scalar 0, 2⟩]) =
    .ok [.probability (1 / 2)] := by decide +kernel

end PDP.Analysis
