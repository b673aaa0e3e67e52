import Verif.Engine.Entries

/-! # Properties C23, C24, C25: which partitions are released -/

set_option linter.unusedSectionVars false
set_option linter.unusedVariables false

namespace PDP.Engine

open PDP

variable {P K V A : Type} [DecidableEq P] [DecidableEq K]

/-! ### Specification -/

/-- `entries` is an outcome of contribution bounding on `col`: if the caller has enforced the bounds then
every row is an entry of its own; otherwise the entries are choices of input rows, one entry per (id,
partition) pair, within the bounds of the parameters. -/
def BoundedEntries (p : Params) (sampling : Bool) (col : List (P × K × V)) (entries : List ((P × K) × List V)) :
    Prop :=
  (p.boundsEnforced = true → entries = col.map fun r => ((r.1, r.2.1), [r.2.2])) ∧
  (p.boundsEnforced = false → KeptFrom col entries ∧
    ∀ u, CallerKeepsBounds p u col → UserEntries p sampling (entriesOf u entries))

/-- Distinct privacy ids with an entry in partition `k`. -/
def idsIn (k : K) (entries : List ((P × K) × List V)) : List P :=
  ((entries.filter fun e => e.1.2 = k).map fun e => e.1.1).dedup

/-- A backend operation that combines accumulators per key. -/
def LawfulCombine (merge : A → A → A) (comb : List (K × A) → List (K × A)) : Prop :=
  ∀ col, IsCombine merge col (comb col)

/-! ### Lemmas -/

theorem leaf_tree {A : Type} (a : A) (l : List A) : ∃ t : MergeTree A, t.leaves = a :: l ∧
    ∀ m : A → A → A, t.eval m = l.foldl m a := by
  induction l using List.reverseRecOn with
  | nil => exact ⟨.leaf a, rfl, fun _ => rfl⟩
  | append_singleton l b ih =>
    obtain ⟨t, h1, h2⟩ := ih
    exact ⟨.node t (.leaf b), by simp [MergeTree.leaves, h1], fun m => by simp [MergeTree.eval, h2]⟩

theorem localCombine_keys (merge : A → A → A) (col : List (K × A)) :
    (localCombine merge col).map Prod.fst = (dictGroup col).map Prod.fst := by
  unfold localCombine
  have h : ∀ e ∈ dictGroup col, e.2 ≠ [] := by
    intro e he
    rw [dictGroup_values col e he, valuesOf_ne_nil, ← dictGroup_keys]
    exact List.mem_map_of_mem he
  revert h
  generalize dictGroup col = g
  intro h
  induction g with
  | nil => rfl
  | cons e g ih =>
    have h1 := h e (by simp)
    obtain ⟨k, vs⟩ := e
    cases vs with
    | nil => exact absurd rfl h1
    | cons v vs =>
      have h2 := ih fun e he => h e (by simp [he])
      rw [List.filterMap_cons]
      show k :: _ = k :: _
      rw [h2]

/-- The combine operation of `LocalBackend` meets the contract. -/
theorem localCombine_lawful (merge : A → A → A) : LawfulCombine (K := K) merge (localCombine merge) := by
  intro col
  refine ⟨?_, ?_, ?_⟩
  · rw [localCombine_keys]; exact dictGroup_nodup col
  · intro k; rw [localCombine_keys]; exact dictGroup_keys col k
  · intro e he
    obtain ⟨⟨k, vs⟩, hg, hr⟩ := List.mem_filterMap.mp he
    have hv := dictGroup_values col _ hg
    cases vs with
    | nil => simp [reduce] at hr
    | cons v vs =>
      simp only [reduce, Option.map_some, Option.some.injEq] at hr
      subst hr
      obtain ⟨t, h1, h2⟩ := leaf_tree v vs
      refine ⟨t, ?_, (h2 merge).symm⟩
      rw [h1]; exact (hv ▸ List.Perm.refl _)

theorem accumulators_entries (B : Backend) (hB : B.Lawful) (p : Params) (hp : p.BoundsValid) (sampling : Bool)
    (create : List V → A) (pub : Option (List K)) (col : List (P × K × V)) :
    ∃ entries, BoundedEntries p sampling (dropPartitions p pub col) entries ∧
      accumulators B p sampling create pub col
        = .ok (addEmptyPublic create pub (entries.map fun e => (e.1.2, create e.2))) := by
  cases he : p.boundsEnforced with
  | true =>
    refine ⟨(dropPartitions p pub col).map fun r => ((r.1, r.2.1), [r.2.2]),
      ⟨fun _ => rfl, fun h => absurd (he.symm.trans h) (by decide)⟩, ?_⟩
    simp [accumulators, dataAccumulators, he, bind, Except.bind, pure, Except.pure, Function.comp_def]
  | false =>
    obtain ⟨b, h1, kept, h2, h3, h4⟩ := run_kept B hB p hp he sampling create (dropPartitions p pub col)
    refine ⟨kept, ⟨fun h => absurd (he.symm.trans h) (by decide), fun _ => ⟨h3, h4⟩⟩, ?_⟩
    simp [accumulators, dataAccumulators, he, h1, h2, bind, Except.bind, pure, Except.pure, Function.comp_def]

/-- Every entry belongs to a partition of the data. -/
theorem BoundedEntries.mem_data {p : Params} {sampling : Bool} {col : List (P × K × V)}
    {entries : List ((P × K) × List V)} (h : BoundedEntries p sampling col entries) :
    ∀ e ∈ entries, ∃ r ∈ col, r.1 = e.1.1 ∧ r.2.1 = e.1.2 := by
  intro e he
  cases hb : p.boundsEnforced with
  | true =>
    rw [h.1 hb] at he
    obtain ⟨r, hr, rfl⟩ := List.mem_map.mp he
    exact ⟨r, hr, rfl, rfl⟩
  | false =>
    obtain ⟨hk, -⟩ := h.2 hb
    have h1 := hk.nonempty e he
    have h2 := hk.fromInput e he
    obtain ⟨v, hv⟩ := List.exists_mem_of_ne_nil _ h1
    have h3 := h2.subset hv
    simp only [cell, List.mem_map, List.mem_filter, decide_eq_true_eq] at h3
    obtain ⟨r, ⟨hr, hr2⟩, -⟩ := h3
    exact ⟨r, hr, hr2⟩

theorem valuesOf_entries (create : List V → A) (k : K) (entries : List ((P × K) × List V)) :
    valuesOf k (entries.map fun e => (e.1.2, create e.2))
      = (entries.filter fun e => e.1.2 = k).map fun e => create e.2 := by
  induction entries with
  | nil => rfl
  | cons e entries ih =>
    rw [List.map_cons, valuesOf_cons, ih, List.filter_cons]
    by_cases h : e.1.2 = k <;> simp [h]

theorem valuesOf_const (k : K) (ps : List K) (a : A) :
    valuesOf k (ps.map fun k => (k, a)) = List.replicate (ps.count k) a := by
  induction ps with
  | nil => rfl
  | cons x ps ih =>
    rw [List.map_cons, valuesOf_cons, ih, List.count_cons]
    by_cases h : x = k
    · simp [h, List.replicate_succ]
    · simp [h]

theorem eval_additive {A : Type} (merge : A → A → A) (μ : A → ℚ) (h : ∀ a b, μ (merge a b) = μ a + μ b)
    (t : MergeTree A) : μ (t.eval merge) = (t.leaves.map μ).sum := by
  induction t with
  | leaf a => simp [MergeTree.eval, MergeTree.leaves]
  | node l r ihl ihr => simp [MergeTree.eval, MergeTree.leaves, h, ihl, ihr]

/-- A measure of one inner accumulator, lifted to compound accumulators, is additive. -/
theorem inner_additive (cs : List (Combiner V)) (i : Fin cs.length) (μ : cs[i].Acc → ℚ)
    (h : ∀ a b, μ (cs[i].merge a b) = μ a + μ b) (a b : (Combiner.compound cs).Acc) :
    μ (Combiner.inner i ((Combiner.compound cs).merge a b)) = μ (Combiner.inner i a) + μ (Combiner.inner i b) := by
  have := (C20_compound_merges_componentwise cs (.node (.leaf a) (.leaf b)) i).2
  simp only [MergeTree.eval, MergeTree.map] at this
  rw [this, h]

theorem inner_create (cs : List (Combiner V)) (i : Fin cs.length) (vs : List V) :
    Combiner.inner i ((Combiner.compound cs).create vs) = cs[i].create vs :=
  component_createTuple cs vs i

/-! ### Public partitions -/

/-- **C23.** With public partitions, `aggregate` returns exactly one entry per distinct public partition and
nothing else, for any backend, any bounds, any public list (with repetitions and unknown partitions), and
any behaviour of the partition selector, which is not consulted.  The exact aggregate `μ` of combiner `i`
in an entry is the sum over the bounded entries of that partition, if `μ` is additive and zero for no
values.  If the caller declares the data as already filtered, it must be. -/
theorem C23_public_partitions_are_the_output (B : Backend) (hB : B.Lawful) (p : Params) (hp : p.BoundsValid)
    (cs : List (Combiner V)) (comb : List (K × (Combiner.compound cs).Acc) → List (K × (Combiner.compound cs).Acc))
    (hcomb : LawfulCombine (Combiner.compound cs).merge comb) (keep : K → ℕ → Bool) (ps : List K)
    (col : List (P × K × V)) (hf : p.publicFiltered = true → ∀ r ∈ col, r.2.1 ∈ ps) :
    ∃ out entries, partitionAccumulators B cs comb keep p (some ps) col = .ok out ∧
      (out.map Prod.fst).Nodup ∧ (∀ k, k ∈ out.map Prod.fst ↔ k ∈ ps) ∧
      BoundedEntries p (Combiner.compound cs).sampling (col.filter fun r => r.2.1 ∈ ps) entries ∧
      ∀ e ∈ out, ∀ (i : Fin cs.length) (μ : cs[i].Acc → ℚ), (∀ a b, μ (cs[i].merge a b) = μ a + μ b) →
        μ (cs[i].create []) = 0 →
        μ (Combiner.inner i e.2)
          = ((entries.filter fun x => x.1.2 = e.1).map fun x => μ (cs[i].create x.2)).sum := by
  have hdrop : dropPartitions p (some ps) col = col.filter fun r => r.2.1 ∈ ps := by
    unfold dropPartitions
    cases hpf : p.publicFiltered with
    | false => simp
    | true =>
      simp only [if_true]
      exact (List.filter_eq_self.mpr fun r hr => by simpa using hf hpf r hr).symm
  obtain ⟨entries, h1, h2⟩ := accumulators_entries B hB p hp (Combiner.compound cs).sampling
    (Combiner.compound cs).create (some ps) col
  rw [hdrop] at h1
  have hC := hcomb (addEmptyPublic (Combiner.compound cs).create (some ps)
    (entries.map fun e => (e.1.2, (Combiner.compound cs).create e.2)))
  refine ⟨_, entries, ?_, hC.nodup, ?_, h1, ?_⟩
  · simp only [partitionAccumulators, h2, bind, Except.bind, selectsPrivately, Option.isNone_some,
      Bool.false_and, pure, Except.pure]
    rfl
  · intro k
    rw [hC.keys]
    simp only [addEmptyPublic, List.map_append, List.mem_append, List.map_map, List.mem_map,
      Function.comp_apply, exists_eq_right]
    constructor
    · rintro (⟨e, he, rfl⟩ | h)
      · obtain ⟨r, hr, -, hr2⟩ := h1.mem_data e he
        have := (List.mem_filter.mp hr).2
        rw [hr2] at this
        simpa using this
      · exact h
    · exact Or.inr
  · intro e he i μ hμ h0
    obtain ⟨t, ht1, ht2⟩ := hC.values e he
    rw [ht2, eval_additive _ (fun a => μ (Combiner.inner i a)) (inner_additive cs i μ hμ),
      (ht1.map _).sum_eq, addEmptyPublic, valuesOf_append, valuesOf_entries, valuesOf_const]
    have h0' : μ (Combiner.inner i ((Combiner.compound cs).create [])) = 0 := by rw [inner_create, h0]
    rw [List.map_append, List.sum_append, List.map_replicate, h0', List.sum_replicate, smul_zero, add_zero,
      List.map_map]
    simp only [Function.comp_def, inner_create]

/-! ### Private partitions -/

theorem rowCount_combined (cs : List (Combiner V)) (accs out : List (K × (Combiner.compound cs).Acc))
    (hC : IsCombine (Combiner.compound cs).merge accs out) (hone : ∀ e ∈ accs, Combiner.rowCount e.2 = 1)
    (e : K × (Combiner.compound cs).Acc) (he : e ∈ out) :
    Combiner.rowCount e.2 = (valuesOf e.1 accs).length := by
  obtain ⟨t, h1, h2⟩ := hC.values e he
  rw [h2, eval_hom (Combiner.compound cs).merge Combiner.rowCount (fun _ _ => rfl), (h1.map _).sum_eq]
  have : ∀ l : List (Combiner.compound cs).Acc, (∀ a ∈ l, Combiner.rowCount a = 1) →
      (l.map Combiner.rowCount).sum = l.length := by
    intro l
    induction l with
    | nil => simp
    | cons a l ih =>
      intro h
      rw [List.map_cons, List.sum_cons, h a (by simp), ih fun a ha => h a (by simp [ha]), List.length_cons,
        Nat.add_comm]
  apply this
  intro a ha
  exact hone _ (mem_valuesOf.mp ha)

theorem divideAndRoundUp_one (a : ℕ) : divideAndRoundUp a 1 = a := by simp [divideAndRoundUp]

/-- One entry per id and partition: entries in a partition are as many as ids. -/
theorem idsIn_length_of_once {entries : List ((P × K) × List V)} (h : (entries.map Prod.fst).Nodup) (k : K) :
    (idsIn k entries).length = (entries.filter fun e => e.1.2 = k).length := by
  unfold idsIn
  rw [List.Nodup.dedup, List.length_map]
  induction entries with
  | nil => simp
  | cons e entries ih =>
    rw [List.map_cons, List.nodup_cons] at h
    rw [List.filter_cons]
    split
    · rename_i hk
      rw [List.map_cons, List.nodup_cons]
      refine ⟨?_, ih h.2⟩
      intro hm
      obtain ⟨e', he', h1⟩ := List.mem_map.mp hm
      obtain ⟨h2, h3⟩ := List.mem_filter.mp he'
      apply h.1
      rw [List.mem_map]
      refine ⟨e', h2, Prod.ext h1 ?_⟩
      simp only [decide_eq_true_eq] at hk h3
      rw [hk, h3]
    · exact ih h.2

/-- Each id has at most `n` rows in the partition: there are at least `rows / n` ids, rounded up. -/
theorem rows_le_ids (n : ℕ) (k : K) (rows : List (P × K)) (h : ∀ u, rows.count (u, k) ≤ n) :
    (rows.filter fun r => r.2 = k).length ≤ (((rows.filter fun r => r.2 = k).map Prod.fst).dedup).length * n := by
  have h1 : ∀ u, ((rows.filter fun r => r.2 = k).map Prod.fst).count u ≤ n := by
    intro u
    refine le_trans (Nat.le_of_eq ?_) (h u)
    clear h
    induction rows with
    | nil => rfl
    | cons r rows ih =>
      rw [List.filter_cons, List.count_cons, ← ih]
      obtain ⟨a, b⟩ := r
      by_cases hb : b = k
      · subst hb
        by_cases ha : a = u
        · subst ha; simp
        · have : ((a, b) == (u, b)) = false := by simpa using ha
          simp [this, ha]
      · have : ((a, b) == (u, k)) = false := by simp [hb]
        simp [hb]
  rw [← List.length_map (f := Prod.fst) (as := rows.filter fun r => r.2 = k)]
  revert h1
  generalize (rows.filter fun r => r.2 = k).map Prod.fst = l
  intro h1
  have h2 : ∀ s : List P, (l.filter fun x => x ∈ s).length ≤ s.length * n := by
    intro s
    induction s with
    | nil => simp
    | cons a s ih =>
      have h3 : (l.filter fun x => x ∈ a :: s).length ≤ l.count a + (l.filter fun x => x ∈ s).length := by
        clear ih h1
        induction l with
        | nil => simp
        | cons x l ihl =>
          by_cases hx : x = a
          · subst hx
            rw [List.filter_cons_of_pos (by simp), List.count_cons_self, List.length_cons]
            have h5 : (l.filter fun y => y ∈ s).length ≤ ((x :: l).filter fun y => y ∈ s).length :=
              ((List.sublist_cons_self x l).filter _).length_le
            omega
          · rw [List.count_cons_of_ne hx]
            by_cases hs : x ∈ s
            · rw [List.filter_cons_of_pos (by simp [hs]), List.filter_cons_of_pos (by simp [hs]),
                List.length_cons, List.length_cons]
              omega
            · rw [List.filter_cons_of_neg (by simp [hs, hx]), List.filter_cons_of_neg (by simp [hs])]
              omega
      rw [List.length_cons, Nat.succ_mul]
      have := h1 a
      omega
  have h4 := h2 l.dedup
  rwa [List.filter_eq_self.mpr (by intro a ha; simpa using ha)] at h4

/-- **C24.** Without public partitions, the released partitions are, each once, those with bounded
entries that the selector accepts, for any behaviour of the selector.  The number of privacy ids shown to
the selector is at most the number of distinct ids with bounded entries in the partition, and is exactly
that number if the engine did the bounding, or if the caller did with at most one row per id. -/
theorem C24_released_only_if_selected (B : Backend) (hB : B.Lawful) (p : Params) (hp : p.BoundsValid)
    (cs : List (Combiner V)) (comb : List (K × (Combiner.compound cs).Acc) → List (K × (Combiner.compound cs).Acc))
    (hcomb : LawfulCombine (Combiner.compound cs).merge comb) (keep : K → ℕ → Bool) (col : List (P × K × V))
    (hpost : p.postThresholding = false) (hfil : p.publicFiltered = false)
    (hu : ∀ u, CallerKeepsBounds p u col) :
    ∃ out entries, ∃ users : K → ℕ, partitionAccumulators B cs comb keep p none col = .ok out ∧
      BoundedEntries p (Combiner.compound cs).sampling col entries ∧
      (out.map Prod.fst).Nodup ∧
      (∀ k, k ∈ out.map Prod.fst ↔ idsIn k entries ≠ [] ∧ keep k (users k) = true) ∧
      (∀ k, users k ≤ (idsIn k entries).length) ∧
      (∀ k, idsIn k entries ≠ [] → 1 ≤ users k) ∧
      (p.boundsEnforced = false → ∀ k, users k = (idsIn k entries).length) ∧
      (p.maxContributions = some 1 ∨ p.maxPerPartition = some 1 → ∀ k, users k = (idsIn k entries).length) := by
  obtain ⟨entries, h1, h2⟩ := accumulators_entries B hB p hp (Combiner.compound cs).sampling
    (Combiner.compound cs).create none col
  have hd : dropPartitions p none col = col := rfl
  rw [hd] at h1
  simp only [addEmptyPublic] at h2
  set accs := entries.map fun e => (e.1.2, (Combiner.compound cs).create e.2) with haccs
  have hC := hcomb accs
  have hone : ∀ e ∈ accs, Combiner.rowCount e.2 = 1 := by
    intro e he
    rw [haccs] at he
    obtain ⟨x, -, rfl⟩ := List.mem_map.mp he
    rfl
  have hmax : ∃ n, maxRowsPerId p = .ok n ∧ 1 ≤ n ∧ (p.boundsEnforced = false → n = 1) ∧
      (p.boundsEnforced = true → p.maxContributions = some n ∨ p.maxPerPartition = some n) ∧
      (p.maxContributions = some 1 ∨ p.maxPerPartition = some 1 → n = 1) := by
    unfold maxRowsPerId
    cases hb : p.boundsEnforced with
    | false => exact ⟨1, rfl, le_refl _, fun _ => rfl, fun h => absurd h (by decide), fun _ => rfl⟩
    | true =>
      rcases hp with ⟨m, hm, e1, e2, e3⟩ | ⟨l0, linf, h0, hi, e1, e2, e3⟩
      · have : m ≠ 0 := by omega
        exact ⟨m, by simp [e1, this, natArg], hm, fun h => absurd h (by decide), fun _ => Or.inl e1,
          by rw [e1, e3]; simp⟩
      · exact ⟨linf, by simp [e1, e3, natArg], hi, fun h => absurd h (by decide), fun _ => Or.inr e3,
          by rw [e1, e3]; simp⟩
  obtain ⟨n, hn1, hn2, hn3, hn4, hn5⟩ := hmax
  have hlen : ∀ k, (valuesOf k accs).length = (entries.filter fun e => e.1.2 = k).length := by
    intro k; rw [haccs, valuesOf_entries, List.length_map]
  have hcount : ∀ k, divideAndRoundUp (entries.filter fun e => e.1.2 = k).length n ≤ (idsIn k entries).length ∧
      (n = 1 → divideAndRoundUp (entries.filter fun e => e.1.2 = k).length n = (idsIn k entries).length) := by
    intro k
    cases hb : p.boundsEnforced with
    | false =>
      have := idsIn_length_of_once (h1.2 hb).1.once k
      rw [hn3 hb, divideAndRoundUp_one, this]
      exact ⟨le_refl _, fun _ => rfl⟩
    | true =>
      have h3 := h1.1 hb
      have hrows : ∀ u, (col.map fun r => (r.1, r.2.1)).count (u, k) ≤ n := by
        intro u
        have hc : (col.map fun r => (r.1, r.2.1)).count (u, k) = (cell u k col).length := by
          unfold cell
          clear h1 h2 haccs accs hC hone hlen h3 hu hd
          induction col with
          | nil => rfl
          | cons r col ih =>
            rw [List.map_cons, List.count_cons, ih, List.filter_cons]
            by_cases h : r.1 = u ∧ r.2.1 = k
            · simp [h]
            · have : ((r.1, r.2.1) == (u, k)) = false := by simpa using h
              simp [h, this]
        rw [hc]
        rcases hn4 hb with h4 | h4
        · refine le_trans ?_ (((hu u).1 hb).1 n h4)
          unfold cell
          rw [List.length_map]
          apply List.Sublist.length_le
          exact List.monotone_filter_right _ (by intro r hr; simp_all)
        · exact ((hu u).1 hb).2.2 n h4 k
      have h5 := rows_le_ids n k (col.map fun r => (r.1, r.2.1)) hrows
      have e1 : (entries.filter fun e => e.1.2 = k).length
          = ((col.map fun r => (r.1, r.2.1)).filter fun r => r.2 = k).length := by
        rw [h3]; simp [List.filter_map, Function.comp_def]
      have e2 : idsIn k entries = (((col.map fun r => (r.1, r.2.1)).filter fun r => r.2 = k).map Prod.fst).dedup := by
        unfold idsIn; rw [h3]; simp [List.filter_map, Function.comp_def]
      rw [e1, e2]
      have hle : divideAndRoundUp ((col.map fun r => (r.1, r.2.1)).filter fun r => r.2 = k).length n
          ≤ (((col.map fun r => (r.1, r.2.1)).filter fun r => r.2 = k).map Prod.fst).dedup.length := by
        unfold divideAndRoundUp
        generalize ((col.map fun r => (r.1, r.2.1)).filter fun r => r.2 = k).length = x at *
        generalize (((col.map fun r => (r.1, r.2.1)).filter fun r => r.2 = k).map Prod.fst).dedup.length = y at *
        rw [Nat.div_le_iff_le_mul_add_pred (by omega)]
        have : n * y = y * n := Nat.mul_comm _ _
        omega
      refine ⟨hle, fun hone' => ?_⟩
      subst hone'
      rw [divideAndRoundUp_one] at hle ⊢
      refine Nat.le_antisymm hle ?_
      refine (List.dedup_sublist _).length_le.trans ?_
      rw [List.length_map]
  refine ⟨selectPrivate keep n (comb accs), entries,
    fun k => divideAndRoundUp (entries.filter fun e => e.1.2 = k).length n, ?_, h1, ?_, ?_,
    fun k => (hcount k).1, ?_, fun hb k => (hcount k).2 (hn3 hb), fun hb k => (hcount k).2 (hn5 hb)⟩
  · simp [partitionAccumulators, h2, bind, Except.bind, selectsPrivately, hpost, hfil, hn1, pure, Except.pure]
  · exact hC.nodup.sublist (List.filter_sublist.map _)
  · intro k
    have hids : idsIn k entries ≠ [] ↔ k ∈ (comb accs).map Prod.fst := by
      rw [hC.keys, ← valuesOf_ne_nil, haccs, valuesOf_entries]
      unfold idsIn
      rw [ne_eq, ne_eq, List.dedup_eq_nil, List.map_eq_nil_iff, List.map_eq_nil_iff]
    rw [hids]
    simp only [selectPrivate, List.mem_map, List.mem_filter]
    constructor
    · rintro ⟨e, ⟨he1, he2⟩, rfl⟩
      rw [rowCount_combined cs accs _ hC hone e he1, hlen] at he2
      exact ⟨⟨e, he1, rfl⟩, he2⟩
    · rintro ⟨⟨e, he1, rfl⟩, he2⟩
      refine ⟨e, ⟨he1, ?_⟩, rfl⟩
      rw [rowCount_combined cs accs _ hC hone e he1, hlen]
      exact he2
  · intro k hk
    have : 1 ≤ (entries.filter fun e => e.1.2 = k).length := by
      rw [Nat.one_le_iff_ne_zero]
      intro h0
      apply hk
      rw [List.length_eq_zero_iff] at h0
      unfold idsIn
      rw [h0]; rfl
    show 1 ≤ (_ + n - 1) / n
    rw [Nat.le_div_iff_mul_le (by omega)]
    omega

/-! ### `select_partitions` -/

/-- The (id, partition) pairs that `_select_partitions` keeps after bounding. -/
theorem boundedPairs_spec (B : Backend) (hB : B.Lawful) (l0 : ℕ) (hl : 1 ≤ l0) (col : List (P × K)) :
    ((B.groupByKey col).flatMap (sampleUnique B l0)).Nodup ∧
    (∀ e ∈ (B.groupByKey col).flatMap (sampleUnique B l0), e ∈ col) ∧
    ∀ u, (((B.groupByKey col).flatMap (sampleUnique B l0)).filter fun e => e.1 = u).length
      = min l0 (valuesOf u col).dedup.length := by
  have hG := hB.group col
  have hin : ∀ e ∈ B.groupByKey col, ∀ k ∈ B.choose "Sample cross-partition contributions" e.1 e.2.dedup l0,
      k ∈ e.2 := by
    intro e _ k hk
    exact List.mem_dedup.mp ((hB.choose _ e.1 e.2.dedup l0 hl).1.subset hk)
  refine ⟨?_, ?_, ?_⟩
  · rw [List.nodup_flatMap]
    refine ⟨fun e he => ?_, ?_⟩
    · unfold sampleUnique
      refine List.Nodup.map (fun a b h => (Prod.mk.inj h).2) ?_
      obtain ⟨l', hp, hs⟩ := (hB.choose "Sample cross-partition contributions" e.1 e.2.dedup l0 hl).1
      exact hp.nodup_iff.mp ((List.nodup_dedup _).sublist hs)
    · have h1 : (B.groupByKey col).Pairwise fun a b => a.1 ≠ b.1 := List.pairwise_map.mp hG.nodup
      refine h1.imp ?_
      intro a b hab
      rw [Function.onFun, List.disjoint_left]
      intro x hx hy
      simp only [sampleUnique, List.mem_map] at hx hy
      obtain ⟨_, -, rfl⟩ := hx
      obtain ⟨_, -, h⟩ := hy
      exact hab (Prod.mk.inj h).1.symm
  · intro e he
    obtain ⟨g, hg, hx⟩ := List.mem_flatMap.mp he
    obtain ⟨k, hk, rfl⟩ := List.mem_map.mp hx
    exact mem_valuesOf.mp ((hG.values g hg).subset (hin g hg k hk))
  · intro u
    have key : ∀ G : List (P × List K), (G.map Prod.fst).Nodup →
        (u ∉ G.map Prod.fst → (G.flatMap (sampleUnique B l0)).filter (fun e => e.1 = u) = []) ∧
        ∀ g ∈ G, g.1 = u → (G.flatMap (sampleUnique B l0)).filter (fun e => e.1 = u) = sampleUnique B l0 g := by
      intro G
      induction G with
      | nil => simp
      | cons g G ih =>
        intro hn
        rw [List.map_cons, List.nodup_cons] at hn
        have hself : ∀ x ∈ sampleUnique B l0 g, x.1 = g.1 := by
          intro x hx
          obtain ⟨_, -, rfl⟩ := List.mem_map.mp hx
          rfl
        rw [List.flatMap_cons, List.filter_append]
        constructor
        · intro hu
          rw [List.map_cons, List.mem_cons, not_or] at hu
          rw [(ih hn.2).1 hu.2, List.append_nil, List.filter_eq_nil_iff]
          intro x hx
          rw [hself x hx]
          simpa using Ne.symm hu.1
        · intro g' hg' hu
          rcases List.mem_cons.mp hg' with rfl | hg'
          · rw [(ih hn.2).1 (hu ▸ hn.1), List.append_nil, List.filter_eq_self]
            intro x hx
            rw [hself x hx]; simpa using hu
          · rw [(ih hn.2).2 g' hg' hu]
            have : (sampleUnique B l0 g).filter (fun e => e.1 = u) = [] := by
              rw [List.filter_eq_nil_iff]
              intro x hx
              rw [hself x hx]
              have : g.1 ≠ u := by
                intro h
                exact hn.1 (List.mem_map.mpr ⟨g', hg', by rw [hu, h]⟩)
              simpa using this
            rw [this, List.nil_append]
    by_cases hu : u ∈ (B.groupByKey col).map Prod.fst
    · obtain ⟨g, hg, rfl⟩ := List.mem_map.mp hu
      rw [(key _ hG.nodup).2 g hg rfl]
      unfold sampleUnique
      rw [List.length_map, (hB.choose _ g.1 g.2.dedup l0 hl).2, ((hG.values g hg).dedup).length_eq]
    · rw [(key _ hG.nodup).1 hu]
      have : valuesOf u col = [] := by
        by_contra h
        exact hu ((hG.keys u).mpr (valuesOf_ne_nil.mp h))
      rw [this]; simp

/-- What `_select_partitions` releases, given the bounded pairs. -/
theorem selectPartitions_spec (B : Backend) (hB : B.Lawful)
    (comb : List (K × (Combiner.compound ([] : List (Combiner Unit))).Acc) →
      List (K × (Combiner.compound ([] : List (Combiner Unit))).Acc))
    (hcomb : LawfulCombine (Combiner.compound ([] : List (Combiner Unit))).merge comb)
    (keep : K → ℕ → Bool) (l0 : ℕ) (col : List (P × K)) :
    (selectPartitions B comb keep l0 col).Nodup ∧
    ∀ k, k ∈ selectPartitions B comb keep l0 col ↔
      k ∈ ((B.groupByKey col).flatMap (sampleUnique B l0)).map Prod.snd ∧
      keep k (((B.groupByKey col).flatMap (sampleUnique B l0)).filter fun e => e.2 = k).length = true := by
  unfold selectPartitions
  simp only
  generalize (B.groupByKey col).flatMap (sampleUnique B l0) = pairs
  have hC := hcomb (pairs.map fun e => (e.2, (Combiner.compound ([] : List (Combiner Unit))).create []))
  have hone : ∀ e ∈ pairs.map fun e => (e.2, (Combiner.compound ([] : List (Combiner Unit))).create []),
      Combiner.rowCount e.2 = 1 := by
    intro e he
    obtain ⟨x, -, rfl⟩ := List.mem_map.mp he
    rfl
  have hlen : ∀ k, (valuesOf k (pairs.map fun e =>
      (e.2, (Combiner.compound ([] : List (Combiner Unit))).create []))).length
      = (pairs.filter fun e => e.2 = k).length := by
    intro k
    unfold valuesOf
    rw [List.length_map, List.filter_map, List.length_map]
    rfl
  have hkeys : ∀ k, k ∈ (comb (pairs.map fun e =>
      (e.2, (Combiner.compound ([] : List (Combiner Unit))).create []))).map Prod.fst ↔ k ∈ pairs.map Prod.snd := by
    intro k
    rw [hC.keys, List.map_map]; rfl
  constructor
  · exact hC.nodup.sublist (List.filter_sublist.map _)
  · intro k
    rw [← hkeys]
    simp only [selectPrivate, List.mem_map, List.mem_filter, divideAndRoundUp_one]
    constructor
    · rintro ⟨e, ⟨he1, he2⟩, rfl⟩
      rw [rowCount_combined _ _ _ hC hone e he1, hlen] at he2
      exact ⟨⟨e, he1, rfl⟩, he2⟩
    · rintro ⟨⟨e, he1, rfl⟩, he2⟩
      refine ⟨e, ⟨he1, ?_⟩, rfl⟩
      rw [rowCount_combined _ _ _ hC hone e he1, hlen]
      exact he2

/-- Removing a privacy id removes exactly its own pairs. -/
theorem boundedPairs_without (B : Backend) (hK : B.KeyLocal) (l0 : ℕ) (col : List (P × K)) (u : P) :
    (B.groupByKey (col.filter fun e => e.1 ≠ u)).flatMap (sampleUnique B l0)
      = ((B.groupByKey col).flatMap (sampleUnique B l0)).filter fun e => e.1 ≠ u := by
  have hg : B.groupByKey (col.filter fun e => e.1 ≠ u) = (B.groupByKey col).filter fun e => e.1 ≠ u :=
    hK.group (fun p => decide (p ≠ u)) col
  have hf : ((B.groupByKey col).filter fun e => e.1 ≠ u).flatMap (sampleUnique B l0)
      = ((B.groupByKey col).flatMap (sampleUnique B l0)).filter fun e => e.1 ≠ u := by
    generalize B.groupByKey col = G
    induction G with
    | nil => rfl
    | cons g G ih =>
      have hself : ∀ x ∈ sampleUnique B l0 g, x.1 = g.1 := by
        intro x hx
        obtain ⟨_, -, rfl⟩ := List.mem_map.mp hx
        rfl
      rw [List.flatMap_cons, List.filter_append, ← ih]
      by_cases h : g.1 = u
      · rw [List.filter_cons_of_neg (by simpa using h)]
        have : (sampleUnique B l0 g).filter (fun e => e.1 ≠ u) = [] := by
          rw [List.filter_eq_nil_iff]
          intro x hx
          rw [hself x hx]; simpa using h
        rw [this, List.nil_append]
      · rw [List.filter_cons_of_pos (by simpa using h), List.flatMap_cons]
        congr 1
        symm
        rw [List.filter_eq_self]
        intro x hx
        rw [hself x hx]; simpa using h
  rw [hg, hf]

/-- **C25.** `select_partitions` releases distinct partitions of the data: those that the selector accepts
on the exact number of bounded privacy ids.  The bounded (id, partition) pairs are distinct pairs of the
data, each id keeping `max_partitions_contributed` of its partitions (all, if it has fewer).  Removing id
`u` removes exactly its own pairs, so it changes at most that many user counts, each by one. -/
theorem C25_select_partitions (B : Backend) (hB : B.Lawful) (hK : B.KeyLocal)
    (comb : List (K × (Combiner.compound ([] : List (Combiner Unit))).Acc) →
      List (K × (Combiner.compound ([] : List (Combiner Unit))).Acc))
    (hcomb : LawfulCombine (Combiner.compound ([] : List (Combiner Unit))).merge comb)
    (keep : K → ℕ → Bool) (l0 : ℕ) (hl : 1 ≤ l0) (col : List (P × K)) :
    ∃ pairs : List (P × K), pairs.Nodup ∧ (∀ e ∈ pairs, e ∈ col) ∧
      (∀ u, (pairs.filter fun e => e.1 = u).length = min l0 ((col.filter fun e => e.1 = u).map Prod.snd).dedup.length) ∧
      (selectPartitions B comb keep l0 col).Nodup ∧
      (∀ k, k ∈ selectPartitions B comb keep l0 col ↔ k ∈ pairs.map Prod.snd ∧
        keep k (pairs.filter fun e => e.2 = k).length = true) ∧
      ∀ u k, k ∈ selectPartitions B comb keep l0 (col.filter fun e => e.1 ≠ u) ↔
        k ∈ (pairs.filter fun e => e.1 ≠ u).map Prod.snd ∧
        keep k ((pairs.filter fun e => e.1 ≠ u).filter fun e => e.2 = k).length = true := by
  obtain ⟨h1, h2, h3⟩ := boundedPairs_spec B hB l0 hl col
  obtain ⟨h4, h5⟩ := selectPartitions_spec B hB comb hcomb keep l0 col
  refine ⟨_, h1, h2, h3, h4, h5, ?_⟩
  intro u k
  rw [(selectPartitions_spec B hB comb hcomb keep l0 _).2 k]
  rw [boundedPairs_without B hK l0 col u]

/-! ### Examples -/

/-- Three users; user 1 is in three partitions and repeats a row. -/
def demoPairs : List (ℕ × ℕ) := [(1, 10), (1, 10), (2, 10), (1, 20), (3, 10), (1, 30), (3, 20)]

/-- With one partition per user, partition 10 has three users and is kept by the threshold 2. -/
example :
    selectPartitions (localBackend firstRng) (localCombine (Combiner.compound []).merge) (fun _ n => 2 ≤ n) 1
      demoPairs = [10] ∧
    selectPartitions (localBackend firstRng) (localCombine (Combiner.compound []).merge) (fun _ n => 2 ≤ n) 2
      demoPairs = [10, 20] := by
  decide +kernel

example := C25_select_partitions (localBackend firstRng) (C39_local_backend_lawful _) (localBackend_keyLocal _)
  (localCombine _) (localCombine_lawful _) (fun (_ : ℕ) n => decide (2 ≤ n)) 1 (le_refl _) demoPairs

def demoPartitionParams : Params := { metrics := [.count], maxPartitions := some 1, maxPerPartition := some 2 }

/-- Public partitions 20, 99, 20: partition 99 is not in the data, partition 10 is not public. -/
example :
    (do let out ← partitionAccumulators (localBackend firstRng) [Combiner.count ℕ] (localCombine (Combiner.compound [Combiner.count ℕ]).merge)
          (fun _ _ => false) demoPartitionParams (some [20, 99, 20]) (demoPairs.map fun e => (e.1, e.2, 0))
        return out.map fun e => (e.1, Combiner.readAs (cs := [Combiner.count ℕ]) (Combiner.count ℕ) 0 rfl e.2))
      = Except.ok [(20, (2 : ℕ)), (99, (0 : ℕ))] := by rfl

example := C23_public_partitions_are_the_output (P := ℕ) (K := ℕ) (localBackend firstRng)
  (C39_local_backend_lawful _) demoPartitionParams (Or.inr ⟨1, 2, le_refl _, by decide, rfl, rfl, rfl⟩)
  [Combiner.count ℕ] (localCombine _) (localCombine_lawful _) (fun _ _ => false) [20, 99, 20]
  (demoPairs.map fun e => (e.1, e.2, 0)) (fun h => absurd h (by decide))

/-- Private selection with threshold 2 releases partition 10 only. -/
example :
    (do let out ← partitionAccumulators (localBackend firstRng) [Combiner.count ℕ] (localCombine (Combiner.compound [Combiner.count ℕ]).merge)
          (fun _ n => decide (2 ≤ n)) demoPartitionParams none (demoPairs.map fun e => (e.1, e.2, 0))
        return out.map fun e => (e.1, Combiner.readAs (cs := [Combiner.count ℕ]) (Combiner.count ℕ) 0 rfl e.2))
      = Except.ok [(10, (4 : ℕ))] := by rfl

example := C24_released_only_if_selected (P := ℕ) (K := ℕ) (localBackend firstRng)
  (C39_local_backend_lawful _) demoPartitionParams (Or.inr ⟨1, 2, le_refl _, by decide, rfl, rfl, rfl⟩)
  [Combiner.count ℕ] (localCombine _) (localCombine_lawful _) (fun _ n => decide (2 ≤ n))
  (demoPairs.map fun e => (e.1, e.2, 0)) rfl rfl
  (fun u => ⟨fun h => absurd h (by decide), fun h => absurd h (by decide)⟩)

/-- If the caller has enforced the bounds with two rows per id, three rows of three ids count as two. -/
example : divideAndRoundUp 3 2 = 2 := rfl

end PDP.Engine
