import Verif.Engine.Combiners
import Mathlib.Tactic.Ring

/-! # Properties C19, C20: merging accumulators -/

set_option linter.unusedVariables false

namespace PDP.Engine

/-- Order of merging does not matter for the combiner. -/
def Combiner.OrderFree {V : Type} (c : Combiner V) : Prop :=
  (∀ a b d, c.merge (c.merge a b) d = c.merge a (c.merge b d)) ∧ ∀ a b, c.merge a b = c.merge b a

namespace Combiner

theorem count_orderFree (V : Type) : (count V).OrderFree :=
  ⟨fun a b d => Nat.add_assoc a b d, fun a b => Nat.add_comm a b⟩

theorem privacyIdCount_orderFree (V : Type) : (privacyIdCount V).OrderFree :=
  ⟨fun a b d => Nat.add_assoc a b d, fun a b => Nat.add_comm a b⟩

theorem sumPerValue_orderFree (lo hi : ℚ) : (sumPerValue lo hi).OrderFree :=
  ⟨fun a b d => Rat.add_assoc a b d, fun a b => Rat.add_comm a b⟩

theorem sumPerPartition_orderFree (lo hi : ℚ) : (sumPerPartition lo hi).OrderFree :=
  ⟨fun a b d => Rat.add_assoc a b d, fun a b => Rat.add_comm a b⟩

theorem mean_orderFree (lo hi : ℚ) : (mean lo hi).OrderFree :=
  ⟨fun a b d => Prod.ext (Nat.add_assoc _ _ _) (Rat.add_assoc _ _ _),
   fun a b => Prod.ext (Nat.add_comm _ _) (Rat.add_comm _ _)⟩

theorem variance_orderFree (lo hi : ℚ) : (variance lo hi).OrderFree :=
  ⟨fun a b d => Prod.ext (Nat.add_assoc _ _ _) (Prod.ext (Rat.add_assoc _ _ _) (Rat.add_assoc _ _ _)),
   fun a b => Prod.ext (Nat.add_comm _ _) (Prod.ext (Rat.add_comm _ _) (Rat.add_comm _ _))⟩

theorem quantile_orderFree (T : Type) [AddCommMonoid T] (entry : ℚ → T) : (quantile T entry).OrderFree := by
  constructor
  · intro (a : T) (b : T) (d : T)
    show (0 + ((0 + a) + b) : T) + d = (0 + a) + ((0 + b) + d)
    simp only [zero_add, add_assoc]
  · intro (a : T) (b : T)
    show ((0 + a) + b : T) = (0 + b) + a
    rw [zero_add, zero_add, add_comm]

theorem vecMerge_assoc (a b d : VecAcc) : vecMerge (vecMerge a b) d = vecMerge a (vecMerge b d) := by
  cases a <;> cases b <;> cases d <;> simp only [vecMerge]
  rename_i a b d
  congr 1
  induction a generalizing b d with
  | nil => simp
  | cons x a ih =>
    cases b with
    | nil => simp
    | cons y b =>
      cases d with
      | nil => simp
      | cons z d => simp [ih, add_assoc]

theorem vectorSum_orderFree (n : ℕ) : (vectorSum n).OrderFree := by
  refine ⟨vecMerge_assoc, fun a b => ?_⟩
  show vecMerge a b = vecMerge b a
  cases a <;> cases b <;> simp only [vecMerge]
  rename_i a b
  congr 1
  exact List.zipWith_comm_of_comm (fun x y => add_comm x y)

theorem mergeTuple_orderFree {V : Type} (cs : List (Combiner V)) (h : ∀ c ∈ cs, c.OrderFree) :
    (∀ a b d, mergeTuple cs (mergeTuple cs a b) d = mergeTuple cs a (mergeTuple cs b d)) ∧
    ∀ a b, mergeTuple cs a b = mergeTuple cs b a := by
  induction cs with
  | nil => exact ⟨fun _ _ _ => rfl, fun _ _ => rfl⟩
  | cons c cs ih =>
    have h1 := h c (by simp)
    have h2 := ih (fun c hc => h c (by simp [hc]))
    exact ⟨fun a b d => Prod.ext (h1.1 _ _ _) (h2.1 _ _ _),
      fun a b => Prod.ext (h1.2 _ _) (h2.2 _ _)⟩

theorem compound_orderFree {V : Type} (cs : List (Combiner V)) (h : ∀ c ∈ cs, c.OrderFree) :
    (compound cs).OrderFree :=
  ⟨fun _ _ _ => Prod.ext (Nat.add_assoc _ _ _) ((mergeTuple_orderFree cs h).1 _ _ _),
   fun _ _ => Prod.ext (Nat.add_comm _ _) ((mergeTuple_orderFree cs h).2 _ _)⟩

end Combiner

/-! ### trees -/

theorem MergeTree.leaves_ne_nil {A : Type} (t : MergeTree A) : t.leaves ≠ [] := by
  induction t with
  | leaf a => simp [leaves]
  | node l r ihl _ => simp [leaves, ihl]

theorem reduce_append {A : Type} (m : A → A → A) (hassoc : ∀ a b d, m (m a b) d = m a (m b d))
    (l r : List A) (x y : A) (hl : reduce m l = some x) (hr : reduce m r = some y) :
    reduce m (l ++ r) = some (m x y) := by
  cases l with
  | nil => simp [reduce] at hl
  | cons a l =>
    cases r with
    | nil => simp [reduce] at hr
    | cons b r =>
      simp only [reduce, Option.some.injEq] at hl hr
      subst hl hr
      simp only [reduce, List.cons_append, List.foldl_append, List.foldl_cons, Option.some.injEq]
      generalize List.foldl m a l = z
      induction r generalizing b with
      | nil => rfl
      | cons c r ih => simp only [List.foldl_cons]; rw [hassoc]; exact ih _

theorem eval_eq_reduce {A : Type} (m : A → A → A) (hassoc : ∀ a b d, m (m a b) d = m a (m b d))
    (t : MergeTree A) : reduce m t.leaves = some (t.eval m) := by
  induction t with
  | leaf a => rfl
  | node l r ihl ihr => exact reduce_append m hassoc _ _ _ _ ihl ihr

theorem reduce_perm {A : Type} (m : A → A → A) (hassoc : ∀ a b d, m (m a b) d = m a (m b d))
    (hcomm : ∀ a b, m a b = m b a) {l r : List A} (h : l.Perm r) : reduce m l = reduce m r := by
  induction h with
  | nil => rfl
  | @cons a l1 l2 h ih =>
    cases l1 with
    | nil => rw [List.nil_perm.mp h]
    | cons b l1 =>
      cases l2 with
      | nil => exact absurd h.length_eq (by simp)
      | cons c l2 =>
        have h1 := reduce_append m hassoc [a] (b :: l1) a _ rfl rfl
        have h2 := reduce_append m hassoc [a] (c :: l2) a _ rfl rfl
        simp only [List.cons_append, List.nil_append] at h1 h2
        rw [h1, h2]
        simp only [reduce, Option.some.injEq] at ih
        rw [ih]
  | swap a b l => simp only [reduce, List.foldl_cons]; rw [hcomm b a]
  | trans _ _ ih1 ih2 => rw [ih1, ih2]

/-- A measure that adds up under merging adds up over the leaves. -/
theorem eval_hom {A M : Type} [AddMonoid M] (m : A → A → A) (f : A → M)
    (hf : ∀ a b, f (m a b) = f a + f b) (t : MergeTree A) : f (t.eval m) = (t.leaves.map f).sum := by
  induction t with
  | leaf a => simp [MergeTree.eval, MergeTree.leaves]
  | node l r ihl ihr => simp [MergeTree.eval, MergeTree.leaves, hf, ihl, ihr]

/-- **C19.** Whatever the order and the tree in which a backend merges the per-user accumulators of
a partition, it obtains the same accumulator, for every order-free combiner. -/
theorem C19_merge_tree_independent {V : Type} (c : Combiner V) (hc : c.OrderFree)
    (t1 t2 : MergeTree c.Acc) (h : t1.leaves.Perm t2.leaves) : t1.eval c.merge = t2.eval c.merge := by
  have h1 := eval_eq_reduce c.merge hc.1 t1
  have h2 := eval_eq_reduce c.merge hc.1 t2
  rw [reduce_perm c.merge hc.1 hc.2 h, h2] at h1
  exact (Option.some.inj h1).symm

/-- **C19.** All built-in combiners, and every compound of built-in combiners, are order free. -/
theorem C19_builtin_combiners_order_free (lo hi : ℚ) (V : Type) (T : Type) [AddCommMonoid T]
    (entry : ℚ → T) (n : ℕ) :
    (Combiner.count V).OrderFree ∧ (Combiner.privacyIdCount V).OrderFree ∧
    (Combiner.sumPerValue lo hi).OrderFree ∧ (Combiner.sumPerPartition lo hi).OrderFree ∧
    (Combiner.mean lo hi).OrderFree ∧ (Combiner.variance lo hi).OrderFree ∧
    (Combiner.quantile T entry).OrderFree ∧ (Combiner.vectorSum n).OrderFree ∧
    ∀ cs : List (Combiner V), (∀ c ∈ cs, c.OrderFree) → (Combiner.compound cs).OrderFree :=
  ⟨Combiner.count_orderFree V, Combiner.privacyIdCount_orderFree V, Combiner.sumPerValue_orderFree lo hi,
   Combiner.sumPerPartition_orderFree lo hi, Combiner.mean_orderFree lo hi,
   Combiner.variance_orderFree lo hi, Combiner.quantile_orderFree T entry, Combiner.vectorSum_orderFree n,
   Combiner.compound_orderFree⟩

/-- **C19.** The loop of the Beam backend is `functools.reduce` as long as accumulators are truthy
(compound accumulators are: they are non-empty tuples). -/
theorem C19_beam_merge_is_reduce {A : Type} (truthy : A → Bool) (m : A → A → A) (accs : List A)
    (h : ∀ a, truthy a = true) : beamMerge truthy m accs = reduce m accs := by
  cases accs with
  | nil => rfl
  | cons a l =>
    have : ∀ r : A, l.foldl (fun res acc => match res with
        | some r => if truthy r then some (m r acc) else some acc
        | none => some acc) (some r) = some (l.foldl m r) := by
      induction l with
      | nil => intro r; rfl
      | cons b l ih => intro r; rw [List.foldl_cons]; simp only [h r, if_true]; exact ih _
    exact this a

/-- With accumulators that can be falsy (a bare `0`), the Beam loop would lose nothing for sums but
loses accumulators of other combiners; this is why only compound accumulators may be passed. -/
example : beamMerge (fun a : ℕ => a != 0) (fun a b => a + b + 1) [0, 5] ≠
    reduce (fun a b => a + b + 1) [0, 5] := by decide

example : (MergeTree.node (.node (.leaf 1) (.leaf 2)) (.leaf (3 : ℕ))).eval (· + ·) = 6 := rfl

/-! ### the compound accumulator -/

/-- **C20.** Merging compound accumulators, in any tree: the row count is the sum of the row counts
and every inner accumulator is merged, in the same tree, with its own combiner. -/
theorem C20_compound_merges_componentwise {V : Type} (cs : List (Combiner V))
    (t : MergeTree (Combiner.compound cs).Acc) (i : Fin cs.length) :
    Combiner.rowCount (t.eval (Combiner.compound cs).merge) = (t.leaves.map Combiner.rowCount).sum ∧
    Combiner.inner i (t.eval (Combiner.compound cs).merge) = (t.map (Combiner.inner i)).eval cs[i].merge := by
  have hcomp : ∀ (cs : List (Combiner V)) (a b : Combiner.AccTuple cs) (i : Fin cs.length),
      Combiner.component cs (Combiner.mergeTuple cs a b) i
        = cs[i].merge (Combiner.component cs a i) (Combiner.component cs b i) := by
    intro cs
    induction cs with
    | nil => intro a b i; exact i.elim0
    | cons c cs ih =>
      intro a b i
      obtain ⟨i, hi⟩ := i
      cases i with
      | zero => rfl
      | succ i => exact ih a.2 b.2 ⟨i, by simpa using hi⟩
  constructor
  · exact eval_hom (Combiner.compound cs).merge Combiner.rowCount (fun _ _ => rfl) t
  · induction t with
    | leaf a => rfl
    | node l r ihl ihr =>
      simp only [MergeTree.eval, MergeTree.map, ← ihl, ← ihr]
      exact hcomp cs _ _ i

theorem component_createTuple {V : Type} (cs : List (Combiner V)) (vs : List V) (i : Fin cs.length) :
    Combiner.component cs (Combiner.createTuple cs vs) i = cs[i].create vs := by
  induction cs with
  | nil => exact i.elim0
  | cons c cs ih =>
    obtain ⟨i, hi⟩ := i
    cases i with
    | zero => rfl
    | succ i => exact ih ⟨i, by simpa using hi⟩

/-- **C20.** When every merged accumulator was created from the values of one (id, partition) pair,
the row count is the number of these pairs (however many values each had), and inner accumulator `i`
is the merge of the accumulators that combiner `i` alone would have created. -/
theorem C20_row_count_counts_pairs {V : Type} (cs : List (Combiner V)) (t : MergeTree (List V))
    (i : Fin cs.length) :
    Combiner.rowCount ((t.map (Combiner.compound cs).create).eval (Combiner.compound cs).merge)
      = t.leaves.length ∧
    Combiner.inner i ((t.map (Combiner.compound cs).create).eval (Combiner.compound cs).merge)
      = (t.map cs[i].create).eval cs[i].merge := by
  have hl : ∀ {A B : Type} (f : A → B) (t : MergeTree A), (t.map f).leaves = t.leaves.map f := by
    intro A B f t
    induction t with
    | leaf a => rfl
    | node l r ihl ihr => simp [MergeTree.leaves, MergeTree.map, ihl, ihr]
  have hm : ∀ {A B C : Type} (f : A → B) (g : B → C) (t : MergeTree A),
      (t.map f).map g = t.map fun a => g (f a) := by
    intro A B C f g t
    induction t with
    | leaf a => rfl
    | node l r ihl ihr => simp [MergeTree.map, ihl, ihr]
  obtain ⟨h1, h2⟩ := C20_compound_merges_componentwise cs (t.map (Combiner.compound cs).create) i
  constructor
  · rw [h1, hl, List.map_map]
    have : (Combiner.rowCount ∘ (Combiner.compound cs).create) = fun _ => 1 := rfl
    rw [this]; simp
  · rw [h2, hm]
    congr 2
    funext vs
    exact component_createTuple cs vs i

/-- Two users with two and three values: row count 2, count 5, clipped sum 11. -/
example :
    let c := Combiner.compound [Combiner.count ℚ, Combiner.sumPerValue 0 5]
    let a := c.merge (c.create [7, 1]) (c.create [2, 3, -4])
    Combiner.rowCount a = 2 ∧ Combiner.inner 0 a = (5 : ℕ) ∧ Combiner.inner 1 a = (11 : ℚ) := by
  refine ⟨rfl, rfl, ?_⟩
  show ((([7, 1] : List ℚ).map (clip 0 5)).sum + (([2, 3, -4] : List ℚ).map (clip 0 5)).sum : ℚ) = 11
  decide +kernel

end PDP.Engine
