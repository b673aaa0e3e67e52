import Verif.Engine.Partitions
import Verif.Engine.Sensitivity
import Mathlib.Algebra.BigOperators.Group.List.Lemmas
import Mathlib.Tactic.Linarith

/-!
# Property C61: data within the bounds is aggregated exactly

If no privacy id exceeds the bounds, then bounding drops nothing, and what the noise is added to is the true
aggregate of the partition.
-/

set_option linter.unusedSectionVars false
set_option linter.unusedVariables false

namespace PDP.Engine

open PDP

variable {P K V A : Type} [DecidableEq P] [DecidableEq K]

/-! ### Specification -/

/-- The rows that count: those of the public partitions, or all rows. -/
def relevant (pub : Option (List K)) (col : List (P × K × V)) : List (P × K × V) :=
  match pub with
  | none => col
  | some ps => col.filter fun r => r.2.1 ∈ ps

/-- Values in partition `k`. -/
def valuesIn (k : K) (col : List (P × K × V)) : List V :=
  (col.filter fun r => r.2.1 = k).map fun r => r.2.2

/-- Distinct privacy ids in partition `k`. -/
def usersIn (k : K) (col : List (P × K × V)) : List P :=
  ((col.filter fun r => r.2.1 = k).map fun r => r.1).dedup

/-- No id exceeds the bound on its number of rows or of partitions (unless the engine is told not to limit
partitions). -/
def WithinPartitionBounds (p : Params) (col : List (P × K × V)) : Prop :=
  ∀ u, (∀ m, p.maxContributions = some m → (col.filter fun r => r.1 = u).length ≤ m) ∧
    (p.performCross = true → ∀ l0, p.maxPartitions = some l0 → (partitionsOf u col).length ≤ l0)

/-- No id exceeds the bound on its number of rows in a partition. -/
def WithinRowBounds (p : Params) (col : List (P × K × V)) : Prop :=
  ∀ u k linf, p.maxPerPartition = some linf → (cell u k col).length ≤ linf

/-! ### Bounding keeps everything -/

theorem perm_of_users {a b : List (P × K × V)}
    (h : ∀ u, (a.filter fun r => r.1 = u).Perm (b.filter fun r => r.1 = u)) : a.Perm b := by
  apply perm_of_cell
  intro u k
  have h1 := (h u).filter (fun r => decide (r.2.1 = k))
  simp only [List.filter_filter] at h1
  unfold cell
  refine List.Perm.map _ ?_
  have e : ∀ l : List (P × K × V), (l.filter fun r => r.1 = u ∧ r.2.1 = k)
      = l.filter fun r => decide (r.2.1 = k) && decide (r.1 = u) := by
    intro l; apply List.filter_congr; intro r _
    by_cases h1 : r.1 = u <;> by_cases h2 : r.2.1 = k <;> simp [h1, h2]
  rw [e, e]; exact h1

theorem run_lossless (B : Backend) (hB : B.Lawful) (p : Params) (hp : p.BoundsValid)
    (sampling : Bool) (create : List V → A) (col : List (P × K × V))
    (hw : WithinPartitionBounds p col) (hr : sampling = true → WithinRowBounds p col) :
    ∃ b, selectBounder p sampling = .ok b ∧ ∃ kept : List ((P × K) × List V),
      b.run B create col = kept.map (fun e => (e.1, create e.2)) ∧ KeptFrom col kept ∧
      (rowsBehind kept).Perm col := by
  rcases hp with ⟨m, hm, h1, h2, h3⟩ | ⟨l0, linf, h0, hi, h1, h2, h3⟩
  · obtain ⟨kept, k1, k2, k3⟩ := perId_kept B hB m hm create col
    have hsel : selectBounder p sampling = .ok (.perId m) := by
      have : m ≠ 0 := by omega
      simp [selectBounder, h1, natArg, this, bind, Except.bind, pure, Except.pure]
    refine ⟨_, hsel, kept, k1, k2, perm_of_users fun u => ?_⟩
    have hsub : ((rowsBehind kept).filter fun r => r.1 = u).Subperm (col.filter fun r => r.1 = u) := by
      obtain ⟨c, hc1, hc2⟩ := k2.rows
      exact ⟨_, hc1.filter _, hc2.filter _⟩
    have := (hw u).1 m h1
    exact hsub.perm_of_length_le (by rw [k3 u]; omega)
  · cases hc : p.performCross with
    | true =>
      cases sampling with
      | true =>
        obtain ⟨kept, k1, k2, k3, k4⟩ := crossAndPer_kept B hB l0 linf h0 hi create col
        have hsel : selectBounder p true = .ok (.crossAndPer l0 linf) := by
          simp [selectBounder, h1, h2, h3, hc, natArg, bind, Except.bind, pure, Except.pure]
        refine ⟨_, hsel, kept, k1, k2, perm_of_users fun u => rows_perm_of_full u k2 ?_ ?_⟩
        · have := (hw u).2 hc l0 h2
          rw [k4 u]; omega
        · intro e he _
          have := hr rfl e.1.1 e.1.2 linf h3
          rw [k3 e he]; omega
      | false =>
        obtain ⟨kept, k1, k2, k3, k4⟩ := cross_kept B hB l0 h0 create col
        have hsel : selectBounder p false = .ok (.cross l0) := by
          simp [selectBounder, h1, h2, hc, natArg, bind, Except.bind, pure, Except.pure]
        refine ⟨_, hsel, kept, k1, k2, perm_of_users fun u => rows_perm_of_full u k2 ?_ ?_⟩
        · have := (hw u).2 hc l0 h2
          rw [k4 u]; omega
        · intro e he _; exact (k3 e he).length_eq
    | false =>
      cases sampling with
      | true =>
        obtain ⟨kept, k1, k2, k3, k4⟩ := linf_kept B hB linf hi create col
        have hsel : selectBounder p true = .ok (.linf linf) := by
          simp [selectBounder, h1, h3, hc, natArg, bind, Except.bind, pure, Except.pure]
        refine ⟨_, hsel, kept, k1, k2, perm_of_users fun u => rows_perm_of_full u k2 (k4 u) ?_⟩
        intro e he _
        have := hr rfl e.1.1 e.1.2 linf h3
        rw [k3 e he]; omega
      | false =>
        obtain ⟨kept, k1, k2, k3⟩ := noOp_kept B hB create col
        have hsel : selectBounder p false = .ok .noOp := by
          simp [selectBounder, h1, hc, pure, Except.pure]
        exact ⟨_, hsel, kept, k1, k2, k3⟩

theorem dropPartitions_eq_relevant (p : Params) (pub : Option (List K)) (col : List (P × K × V))
    (hf : p.publicFiltered = true → ∀ ps, pub = some ps → ∀ r ∈ col, r.2.1 ∈ ps) :
    dropPartitions p pub col = relevant pub col := by
  unfold dropPartitions relevant
  cases pub with
  | none => rfl
  | some ps =>
    cases hpf : p.publicFiltered with
    | false => simp
    | true =>
      simp only [if_true]
      exact (List.filter_eq_self.mpr fun r hr => by simpa using hf hpf ps rfl r hr).symm

theorem maxRowsPerId_ok (p : Params) (hp : p.BoundsValid) : ∃ n, maxRowsPerId p = .ok n := by
  unfold maxRowsPerId
  cases hb : p.boundsEnforced with
  | false => exact ⟨1, rfl⟩
  | true =>
    rcases hp with ⟨m, hm, e1, e2, e3⟩ | ⟨l0, linf, h0, hi, e1, e2, e3⟩
    · have : m ≠ 0 := by omega
      exact ⟨m, by simp [e1, this, natArg]⟩
    · exact ⟨linf, by simp [e1, e3, natArg]⟩

/-- The partitions of the output and the entries behind it when nothing is dropped: all rows, grouped by id and partition (or one
entry per row if the caller has enforced the bounds). -/
theorem output_entries_counted (B : Backend) (hB : B.Lawful) (p : Params) (hp : p.BoundsValid)
    (cs : List (Combiner V)) (comb : List (K × (Combiner.compound cs).Acc) → List (K × (Combiner.compound cs).Acc))
    (hcomb : LawfulCombine (Combiner.compound cs).merge comb) (keep : K → ℕ → Bool) (pub : Option (List K))
    (col : List (P × K × V)) (hf : p.publicFiltered = true → ∀ ps, pub = some ps → ∀ r ∈ col, r.2.1 ∈ ps)
    (hw : p.boundsEnforced = false → WithinPartitionBounds p (relevant pub col))
    (hr : p.boundsEnforced = false → (Combiner.compound cs).sampling = true → WithinRowBounds p (relevant pub col)) :
    ∃ out entries, partitionAccumulators B cs comb keep p pub col = .ok out ∧
      (rowsBehind entries).Perm (relevant pub col) ∧
      (∀ e ∈ entries, e.2 ≠ []) ∧
      (p.boundsEnforced = false → (entries.map Prod.fst).Nodup) ∧
      (p.boundsEnforced = true → ∀ e ∈ entries, e.2.length = 1) ∧
      (out.map Prod.fst).Nodup ∧
      ((∀ k n, keep k n = true) → ∀ k, k ∈ out.map Prod.fst ↔ (∃ x ∈ entries, x.1.2 = k) ∨ ∃ ps, pub = some ps ∧ k ∈ ps) ∧
      ∀ e ∈ out, ∃ (t : MergeTree (Combiner.compound cs).Acc) (n : ℕ),
        n = (pub.getD []).count e.1 ∧
        t.leaves.Perm (((entries.filter fun x => x.1.2 = e.1).map fun x => (Combiner.compound cs).create x.2)
          ++ List.replicate n ((Combiner.compound cs).create [])) ∧
        e.2 = t.eval (Combiner.compound cs).merge := by
  have key : ∃ entries, accumulators B p (Combiner.compound cs).sampling (Combiner.compound cs).create pub col
        = .ok (addEmptyPublic (Combiner.compound cs).create pub
            (entries.map fun e => (e.1.2, (Combiner.compound cs).create e.2))) ∧
      (rowsBehind entries).Perm (relevant pub col) ∧ (∀ e ∈ entries, e.2 ≠ []) ∧
      (p.boundsEnforced = false → (entries.map Prod.fst).Nodup) ∧
      (p.boundsEnforced = true → ∀ e ∈ entries, e.2.length = 1) := by
    have hd := dropPartitions_eq_relevant p pub col hf
    cases he : p.boundsEnforced with
    | true =>
      refine ⟨(relevant pub col).map fun r => ((r.1, r.2.1), [r.2.2]), ?_, ?_, ?_, fun h => by simp at h, ?_⟩
      · simp [accumulators, dataAccumulators, he, hd, bind, Except.bind, pure, Except.pure, Function.comp_def]
      · unfold rowsBehind
        rw [List.flatMap_map]
        simp only [List.map_cons, List.map_nil]
        rw [List.flatMap_singleton']
      · intro e hm
        obtain ⟨r, -, rfl⟩ := List.mem_map.mp hm
        simp
      · intro _ e hm
        obtain ⟨r, -, rfl⟩ := List.mem_map.mp hm
        rfl
    | false =>
      obtain ⟨b, h1, kept, h2, h3, h4⟩ := run_lossless B hB p hp (Combiner.compound cs).sampling
        (Combiner.compound cs).create (relevant pub col) (hw he) (hr he)
      refine ⟨kept, ?_, h4, h3.nonempty, fun _ => h3.once, fun h => by simp at h⟩
      simp [accumulators, dataAccumulators, he, hd, h1, h2, bind, Except.bind, pure, Except.pure, Function.comp_def]
  obtain ⟨entries, h1, h2, h3, h4, h6⟩ := key
  have hC := hcomb (addEmptyPublic (Combiner.compound cs).create pub
            (entries.map fun e => (e.1.2, (Combiner.compound cs).create e.2)))
  have hval : ∀ e ∈ comb (addEmptyPublic (Combiner.compound cs).create pub
            (entries.map fun e => (e.1.2, (Combiner.compound cs).create e.2))),
      ∃ (t : MergeTree (Combiner.compound cs).Acc) (n : ℕ), n = (pub.getD []).count e.1 ∧
        t.leaves.Perm (((entries.filter fun x => x.1.2 = e.1).map fun x => (Combiner.compound cs).create x.2)
          ++ List.replicate n ((Combiner.compound cs).create [])) ∧
        e.2 = t.eval (Combiner.compound cs).merge := by
    intro e he
    obtain ⟨t, ht1, ht2⟩ := hC.values e he
    cases pub with
    | none =>
      refine ⟨t, 0, rfl, ?_, ht2⟩
      rw [addEmptyPublic, valuesOf_entries] at ht1
      simpa using ht1
    | some ps =>
      rw [addEmptyPublic, valuesOf_append, valuesOf_entries, valuesOf_const] at ht1
      exact ⟨t, _, rfl, ht1, ht2⟩
  have hkeys : ∀ k, k ∈ (comb (addEmptyPublic (Combiner.compound cs).create pub
            (entries.map fun e => (e.1.2, (Combiner.compound cs).create e.2)))).map Prod.fst
      ↔ (∃ x ∈ entries, x.1.2 = k) ∨ ∃ ps, pub = some ps ∧ k ∈ ps := by
    intro k
    rw [hC.keys k]
    cases pub with
    | none => simp [addEmptyPublic]
    | some ps => simp [addEmptyPublic]
  cases hs : selectsPrivately p pub with
  | false =>
    refine ⟨_, entries, ?_, h2, h3, h4, h6, hC.nodup, fun _ => hkeys, hval⟩
    simp [partitionAccumulators, h1, hs, bind, Except.bind, pure, Except.pure]
  | true =>
    obtain ⟨n, hn⟩ := maxRowsPerId_ok p hp
    refine ⟨selectPrivate keep n (comb (addEmptyPublic (Combiner.compound cs).create pub
            (entries.map fun e => (e.1.2, (Combiner.compound cs).create e.2)))), entries, ?_, h2, h3, h4, h6, ?_, ?_, ?_⟩
    · simp [partitionAccumulators, h1, hs, hn, bind, Except.bind, pure, Except.pure]
    · exact hC.nodup.sublist (List.filter_sublist.map _)
    · intro hk
      have : ∀ l : List (K × (Combiner.compound cs).Acc), selectPrivate keep n l = l := fun l =>
        List.filter_eq_self.mpr fun e _ => hk _ _
      rw [this]
      exact hkeys
    · intro e he
      exact hval e (List.mem_filter.mp he).1

/-- `output_entries_counted` without the number of empty accumulators. -/
theorem output_entries_keys (B : Backend) (hB : B.Lawful) (p : Params) (hp : p.BoundsValid)
    (cs : List (Combiner V)) (comb : List (K × (Combiner.compound cs).Acc) → List (K × (Combiner.compound cs).Acc))
    (hcomb : LawfulCombine (Combiner.compound cs).merge comb) (keep : K → ℕ → Bool) (pub : Option (List K))
    (col : List (P × K × V)) (hf : p.publicFiltered = true → ∀ ps, pub = some ps → ∀ r ∈ col, r.2.1 ∈ ps)
    (hw : p.boundsEnforced = false → WithinPartitionBounds p (relevant pub col))
    (hr : p.boundsEnforced = false → (Combiner.compound cs).sampling = true → WithinRowBounds p (relevant pub col)) :
    ∃ out entries, partitionAccumulators B cs comb keep p pub col = .ok out ∧
      (rowsBehind entries).Perm (relevant pub col) ∧
      (∀ e ∈ entries, e.2 ≠ []) ∧
      (p.boundsEnforced = false → (entries.map Prod.fst).Nodup) ∧
      (p.boundsEnforced = true → ∀ e ∈ entries, e.2.length = 1) ∧
      (out.map Prod.fst).Nodup ∧
      ((∀ k n, keep k n = true) → ∀ k, k ∈ out.map Prod.fst ↔ (∃ x ∈ entries, x.1.2 = k) ∨ ∃ ps, pub = some ps ∧ k ∈ ps) ∧
      ∀ e ∈ out, ∃ (t : MergeTree (Combiner.compound cs).Acc) (n : ℕ),
        (pub = none → n = 0) ∧
        t.leaves.Perm (((entries.filter fun x => x.1.2 = e.1).map fun x => (Combiner.compound cs).create x.2)
          ++ List.replicate n ((Combiner.compound cs).create [])) ∧
        e.2 = t.eval (Combiner.compound cs).merge := by
  obtain ⟨out, entries, h1, h2, h3, h4, h5, h6, h7, h8⟩ := output_entries_counted B hB p hp cs comb hcomb keep pub col hf hw hr
  refine ⟨out, entries, h1, h2, h3, h4, h5, h6, h7, fun e he => ?_⟩
  obtain ⟨t, n, hn, ht⟩ := h8 e he
  exact ⟨t, n, fun h => by rw [hn, h]; rfl, ht⟩

/-- The entries behind the output when nothing is dropped: all rows, grouped by id and partition (or one
entry per row if the caller has enforced the bounds). -/
theorem output_entries (B : Backend) (hB : B.Lawful) (p : Params) (hp : p.BoundsValid)
    (cs : List (Combiner V)) (comb : List (K × (Combiner.compound cs).Acc) → List (K × (Combiner.compound cs).Acc))
    (hcomb : LawfulCombine (Combiner.compound cs).merge comb) (keep : K → ℕ → Bool) (pub : Option (List K))
    (col : List (P × K × V)) (hf : p.publicFiltered = true → ∀ ps, pub = some ps → ∀ r ∈ col, r.2.1 ∈ ps)
    (hw : p.boundsEnforced = false → WithinPartitionBounds p (relevant pub col))
    (hr : p.boundsEnforced = false → (Combiner.compound cs).sampling = true → WithinRowBounds p (relevant pub col)) :
    ∃ out entries, partitionAccumulators B cs comb keep p pub col = .ok out ∧
      (rowsBehind entries).Perm (relevant pub col) ∧
      (∀ e ∈ entries, e.2 ≠ []) ∧
      (p.boundsEnforced = false → (entries.map Prod.fst).Nodup) ∧
      ∀ e ∈ out, ∃ (t : MergeTree (Combiner.compound cs).Acc) (n : ℕ),
        (pub = none → n = 0) ∧
        t.leaves.Perm (((entries.filter fun x => x.1.2 = e.1).map fun x => (Combiner.compound cs).create x.2)
          ++ List.replicate n ((Combiner.compound cs).create [])) ∧
        e.2 = t.eval (Combiner.compound cs).merge := by
  obtain ⟨out, entries, h1, h2, h3, h4, -, -, -, h5⟩ := output_entries_keys B hB p hp cs comb hcomb keep pub col hf hw hr
  exact ⟨out, entries, h1, h2, h3, h4, h5⟩

/-! ### Sums over entries -/

theorem entries_sum_rows {M : Type} [AddCommMonoid M] (g : V → M) (k : K) {entries : List ((P × K) × List V)}
    {col : List (P × K × V)} (h : (rowsBehind entries).Perm col) :
    ((entries.filter fun x => x.1.2 = k).map fun x => (x.2.map g).sum).sum = ((valuesIn k col).map g).sum := by
  have e1 : ((valuesIn k col).map g).sum = ((valuesIn k (rowsBehind entries)).map g).sum := by
    unfold valuesIn
    exact ((((h.filter _).map _).map g).sum_eq).symm
  rw [e1]
  clear e1 h
  induction entries with
  | nil => rfl
  | cons e entries ih =>
    have h1 : valuesIn k (rowsBehind (e :: entries))
        = (if e.1.2 = k then e.2 else []) ++ valuesIn k (rowsBehind entries) := by
      unfold valuesIn rowsBehind
      rw [List.flatMap_cons, List.filter_append, List.map_append]
      congr 1
      by_cases hk : e.1.2 = k
      · rw [if_pos hk, List.filter_eq_self.mpr (by simp [hk])]; simp [Function.comp_def]
      · rw [if_neg hk, List.filter_eq_nil_iff.mpr (by simp [hk])]; rfl
    rw [h1, List.filter_cons, List.map_append, List.sum_append, ← ih]
    by_cases hk : e.1.2 = k <;> simp [hk]

theorem entries_cells {entries : List ((P × K) × List V)} {col : List (P × K × V)}
    (h : (rowsBehind entries).Perm col) (hn : (entries.map Prod.fst).Nodup) :
    ∀ e ∈ entries, e.2.Perm (cell e.1.1 e.1.2 col) := by
  intro e he
  have h1 := cell_rowsBehind hn he
  have h2 : (cell e.1.1 e.1.2 (rowsBehind entries)).Perm (cell e.1.1 e.1.2 col) := (h.filter _).map _
  rwa [h1] at h2

theorem users_perm {entries : List ((P × K) × List V)} {col : List (P × K × V)}
    (h : (rowsBehind entries).Perm col) (hn : (entries.map Prod.fst).Nodup) (h0 : ∀ e ∈ entries, e.2 ≠ []) (k : K) :
    ((entries.filter fun x => x.1.2 = k).map fun x => x.1.1).Perm (usersIn k col) := by
  have hnd : ((entries.filter fun x => x.1.2 = k).map fun x => x.1.1).Nodup := by
    rw [List.nodup_map_iff_inj_on]
    · intro x hx y hy hxy
      obtain ⟨hx1, hx2⟩ := List.mem_filter.mp hx
      obtain ⟨hy1, hy2⟩ := List.mem_filter.mp hy
      simp only [decide_eq_true_eq] at hx2 hy2
      exact List.inj_on_of_nodup_map hn hx1 hy1 (Prod.ext hxy (hx2.trans hy2.symm))
    · exact (List.Nodup.of_map _ hn).filter _
  unfold usersIn
  rw [List.perm_ext_iff_of_nodup hnd (List.nodup_dedup _)]
  intro u
  rw [List.mem_dedup, List.mem_map, List.mem_map]
  constructor
  · rintro ⟨e, he, rfl⟩
    obtain ⟨he1, he2⟩ := List.mem_filter.mp he
    obtain ⟨v, hv⟩ := List.exists_mem_of_ne_nil _ (h0 e he1)
    refine ⟨(e.1.1, e.1.2, v), List.mem_filter.mpr ⟨h.mem_iff.mp ?_, he2⟩, rfl⟩
    unfold rowsBehind
    rw [List.mem_flatMap]
    exact ⟨e, he1, List.mem_map.mpr ⟨v, hv, rfl⟩⟩
  · rintro ⟨r, hr, rfl⟩
    obtain ⟨hr1, hr2⟩ := List.mem_filter.mp hr
    have := h.mem_iff.mpr hr1
    unfold rowsBehind at this
    rw [List.mem_flatMap] at this
    obtain ⟨e, he, hv⟩ := this
    obtain ⟨v, -, rfl⟩ := List.mem_map.mp hv
    exact ⟨e, List.mem_filter.mpr ⟨he, hr2⟩, rfl⟩

theorem entries_sum_users {M : Type} [AddCommMonoid M] (ν : List V → M) (hν : ∀ a b : List V, a.Perm b → ν a = ν b)
    (k : K) {entries : List ((P × K) × List V)} {col : List (P × K × V)} (h : (rowsBehind entries).Perm col)
    (hn : (entries.map Prod.fst).Nodup) (h0 : ∀ e ∈ entries, e.2 ≠ []) :
    ((entries.filter fun x => x.1.2 = k).map fun x => ν x.2).sum
      = ((usersIn k col).map fun u => ν (cell u k col)).sum := by
  rw [← ((users_perm h hn h0 k).map fun u => ν (cell u k col)).sum_eq, List.map_map]
  congr 1
  apply List.map_congr_left
  intro e he
  obtain ⟨he1, he2⟩ := List.mem_filter.mp he
  simp only [decide_eq_true_eq] at he2
  show ν e.2 = ν (cell e.1.1 k col)
  rw [← he2]
  exact hν _ _ (entries_cells h hn e he1)

/-! ### The aggregates -/

/-- Reading combiner `i` of a merged compound accumulator. -/
theorem read_eval {M : Type} [AddCommMonoid M] (cs : List (Combiner V)) (c : Combiner V) (i : Fin cs.length)
    (hi : cs[i] = c) (μ : c.Acc → M) (hμ : ∀ a b, μ (c.merge a b) = μ a + μ b)
    (t : MergeTree (Combiner.compound cs).Acc) :
    μ (Combiner.readAs c i hi (t.eval (Combiner.compound cs).merge))
      = (t.leaves.map fun a => μ (Combiner.readAs c i hi a)).sum := by
  subst hi
  refine eval_hom (Combiner.compound cs).merge (fun a => μ (Combiner.readAs cs[i] i rfl a)) ?_ t
  intro a b
  have := (C20_compound_merges_componentwise cs (.node (.leaf a) (.leaf b)) i).2
  simp only [MergeTree.eval, MergeTree.map] at this
  show μ (Combiner.inner i _) = μ (Combiner.inner i _) + μ (Combiner.inner i _)
  rw [this, hμ]

/-- An additive reading of combiner `i`, zero for no values: its value in the output is the sum over the
entries. -/
theorem output_read {M : Type} [AddCommMonoid M] (B : Backend) (hB : B.Lawful) (p : Params) (hp : p.BoundsValid)
    (cs : List (Combiner V)) (comb : List (K × (Combiner.compound cs).Acc) → List (K × (Combiner.compound cs).Acc))
    (hcomb : LawfulCombine (Combiner.compound cs).merge comb) (keep : K → ℕ → Bool) (pub : Option (List K))
    (col : List (P × K × V)) (hf : p.publicFiltered = true → ∀ ps, pub = some ps → ∀ r ∈ col, r.2.1 ∈ ps)
    (hw : p.boundsEnforced = false → WithinPartitionBounds p (relevant pub col))
    (hr : p.boundsEnforced = false → (Combiner.compound cs).sampling = true → WithinRowBounds p (relevant pub col))
    (c : Combiner V) (i : Fin cs.length) (hi : cs[i] = c) (μ : c.Acc → M)
    (hμ : ∀ a b, μ (c.merge a b) = μ a + μ b) (hμ0 : pub ≠ none → μ (c.create []) = 0) :
    ∃ out entries, partitionAccumulators B cs comb keep p pub col = .ok out ∧
      (rowsBehind entries).Perm (relevant pub col) ∧ (∀ e ∈ entries, e.2 ≠ []) ∧
      (p.boundsEnforced = false → (entries.map Prod.fst).Nodup) ∧
      ∀ e ∈ out, μ (Combiner.readAs c i hi e.2)
        = ((entries.filter fun x => x.1.2 = e.1).map fun x => μ (c.create x.2)).sum := by
  obtain ⟨out, entries, h1, h2, h3, h4, h5⟩ := output_entries B hB p hp cs comb hcomb keep pub col hf hw hr
  refine ⟨out, entries, h1, h2, h3, h4, fun e he => ?_⟩
  obtain ⟨t, n, hn, ht1, ht2⟩ := h5 e he
  have hz : (List.replicate n (μ (c.create []))).sum = 0 := by
    rw [List.sum_replicate]
    by_cases hpub : pub = none
    · rw [hn hpub, zero_smul]
    · rw [hμ0 hpub, smul_zero]
  rw [ht2, read_eval cs c i hi μ hμ, (ht1.map _).sum_eq, List.map_append, List.sum_append, List.map_replicate,
    readAs_create, hz, add_zero, List.map_map]
  simp only [Function.comp_def, readAs_create]

section Metrics

variable (B : Backend) (hB : B.Lawful) (p : Params) (hp : p.BoundsValid) (keep : K → ℕ → Bool)
  (pub : Option (List K))

include hB hp

/-- **C61.** COUNT: if no id exceeds the bounds (or the caller has enforced them), the value the noise is added
to is the number of rows of the partition, whatever other metrics are computed, for any backend, random choices
and merge order. -/
theorem C61_count_is_exact (cs : List (Combiner V))
    (comb : List (K × (Combiner.compound cs).Acc) → List (K × (Combiner.compound cs).Acc))
    (hcomb : LawfulCombine (Combiner.compound cs).merge comb) (col : List (P × K × V))
    (hf : p.publicFiltered = true → ∀ ps, pub = some ps → ∀ r ∈ col, r.2.1 ∈ ps)
    (hw : p.boundsEnforced = false →
      WithinPartitionBounds p (relevant pub col) ∧ WithinRowBounds p (relevant pub col))
    (i : Fin cs.length) (hi : cs[i] = Combiner.count V) :
    ∃ out, partitionAccumulators B cs comb keep p pub col = .ok out ∧
      ∀ e ∈ out, (Combiner.readAs _ i hi e.2 : ℕ) = (valuesIn e.1 (relevant pub col)).length := by
  obtain ⟨out, entries, h1, h2, h3, h4, h5⟩ := output_read B hB p hp cs comb hcomb keep pub col hf
    (fun h => (hw h).1) (fun h _ => (hw h).2) (Combiner.count V) i hi (fun a : ℕ => a) (fun _ _ => rfl) (fun _ => rfl)
  refine ⟨out, h1, fun e he => (h5 e he).trans ?_⟩
  have := entries_sum_rows (fun _ : V => (1 : ℕ)) e.1 h2
  simp only [List.map_const', List.sum_replicate, smul_eq_mul, mul_one] at this
  exact this

/-- **C61.** SUM with bounds on values: the value is the sum of the clipped values of the partition. -/
theorem C61_sum_is_exact (cs : List (Combiner ℚ))
    (comb : List (K × (Combiner.compound cs).Acc) → List (K × (Combiner.compound cs).Acc))
    (hcomb : LawfulCombine (Combiner.compound cs).merge comb) (col : List (P × K × ℚ))
    (hf : p.publicFiltered = true → ∀ ps, pub = some ps → ∀ r ∈ col, r.2.1 ∈ ps)
    (hw : p.boundsEnforced = false →
      WithinPartitionBounds p (relevant pub col) ∧ WithinRowBounds p (relevant pub col))
    (lo hi : ℚ) (i : Fin cs.length) (h : cs[i] = Combiner.sumPerValue lo hi) :
    ∃ out, partitionAccumulators B cs comb keep p pub col = .ok out ∧
      ∀ e ∈ out, (Combiner.readAs _ i h e.2 : ℚ)
        = ((valuesIn e.1 (relevant pub col)).map fun v => min (max v lo) hi).sum := by
  obtain ⟨out, entries, h1, h2, h3, h4, h5⟩ := output_read B hB p hp cs comb hcomb keep pub col hf
    (fun h => (hw h).1) (fun h _ => (hw h).2) (Combiner.sumPerValue lo hi) i h (fun a : ℚ => a) (fun _ _ => rfl) (fun _ => rfl)
  refine ⟨out, h1, fun e he => (h5 e he).trans ?_⟩
  exact entries_sum_rows (fun v : ℚ => clip lo hi v) e.1 h2

/-- **C61.** MEAN: the count and the sum of the distances of the clipped values to the middle. -/
theorem C61_mean_is_exact (cs : List (Combiner ℚ))
    (comb : List (K × (Combiner.compound cs).Acc) → List (K × (Combiner.compound cs).Acc))
    (hcomb : LawfulCombine (Combiner.compound cs).merge comb) (col : List (P × K × ℚ))
    (hf : p.publicFiltered = true → ∀ ps, pub = some ps → ∀ r ∈ col, r.2.1 ∈ ps)
    (hw : p.boundsEnforced = false →
      WithinPartitionBounds p (relevant pub col) ∧ WithinRowBounds p (relevant pub col))
    (lo hi : ℚ) (i : Fin cs.length) (h : cs[i] = Combiner.mean lo hi) :
    ∃ out, partitionAccumulators B cs comb keep p pub col = .ok out ∧
      ∀ e ∈ out, (Combiner.readAs _ i h e.2 : ℕ × ℚ)
        = ((valuesIn e.1 (relevant pub col)).length,
           ((valuesIn e.1 (relevant pub col)).map fun v => min (max v lo) hi - (lo + hi) / 2).sum) := by
  obtain ⟨out, entries, h1, h2, h3, h4, h5⟩ := output_read B hB p hp cs comb hcomb keep pub col hf
    (fun h => (hw h).1) (fun h _ => (hw h).2) (Combiner.mean lo hi) i h (fun a : ℕ × ℚ => a) (fun _ _ => rfl) (fun _ => rfl)
  refine ⟨out, h1, fun e he => (h5 e he).trans ?_⟩
  have e1 := entries_sum_rows (fun v : ℚ => ((1 : ℕ), clip lo hi v - middle lo hi)) e.1 h2
  have e2 : ∀ l : List ℚ, (l.map fun v : ℚ => ((1 : ℕ), clip lo hi v - middle lo hi)).sum
      = (l.length, (l.map fun v => clip lo hi v - middle lo hi).sum) := by
    intro l
    induction l with
    | nil => rfl
    | cons v l ih =>
      rw [List.map_cons, List.sum_cons, ih, List.map_cons, List.sum_cons, List.length_cons, Prod.mk_add_mk,
        Nat.add_comm]
  simp only [e2] at e1
  refine e1.trans ?_
  simp only [clip, middle]
  rw [Prod.mk.injEq]
  refine ⟨rfl, ?_⟩
  congr 1
  apply List.map_congr_left
  intro v _
  first | rfl | ring

/-- **C61.** VARIANCE: additionally the sum of the squares of these distances. -/
theorem C61_variance_is_exact (cs : List (Combiner ℚ))
    (comb : List (K × (Combiner.compound cs).Acc) → List (K × (Combiner.compound cs).Acc))
    (hcomb : LawfulCombine (Combiner.compound cs).merge comb) (col : List (P × K × ℚ))
    (hf : p.publicFiltered = true → ∀ ps, pub = some ps → ∀ r ∈ col, r.2.1 ∈ ps)
    (hw : p.boundsEnforced = false →
      WithinPartitionBounds p (relevant pub col) ∧ WithinRowBounds p (relevant pub col))
    (lo hi : ℚ) (i : Fin cs.length) (h : cs[i] = Combiner.variance lo hi) :
    ∃ out, partitionAccumulators B cs comb keep p pub col = .ok out ∧
      ∀ e ∈ out, (Combiner.readAs _ i h e.2 : ℕ × ℚ × ℚ)
        = ((valuesIn e.1 (relevant pub col)).length,
           ((valuesIn e.1 (relevant pub col)).map fun v => min (max v lo) hi - (lo + hi) / 2).sum,
           ((valuesIn e.1 (relevant pub col)).map fun v => (min (max v lo) hi - (lo + hi) / 2) ^ 2).sum) := by
  obtain ⟨out, entries, h1, h2, h3, h4, h5⟩ := output_read B hB p hp cs comb hcomb keep pub col hf
    (fun h => (hw h).1) (fun h _ => (hw h).2) (Combiner.variance lo hi) i h (fun a : ℕ × ℚ × ℚ => a)
    (fun _ _ => rfl) (fun _ => rfl)
  refine ⟨out, h1, fun e he => (h5 e he).trans ?_⟩
  have hm : ∀ v : ℚ, clip lo hi v - middle lo hi = min (max v lo) hi - (lo + hi) / 2 := by
    intro v; simp only [clip, middle]; first | rfl | ring
  have e1 := entries_sum_rows (fun v : ℚ => ((1 : ℕ), clip lo hi v - middle lo hi,
    (clip lo hi v - middle lo hi) ^ 2)) e.1 h2
  have e2 : ∀ l : List ℚ, (l.map fun v : ℚ => ((1 : ℕ), clip lo hi v - middle lo hi,
      (clip lo hi v - middle lo hi) ^ 2)).sum
      = (l.length, (l.map fun v => clip lo hi v - middle lo hi).sum,
          (l.map fun v => (clip lo hi v - middle lo hi) ^ 2).sum) := by
    intro l
    induction l with
    | nil => rfl
    | cons v l ih =>
      rw [List.map_cons, List.sum_cons, ih, List.map_cons, List.sum_cons, List.length_cons, Prod.mk_add_mk,
        Prod.mk_add_mk, List.map_cons, List.sum_cons, Nat.add_comm]
  simp only [e2] at e1
  simp only [hm] at e1
  simp only [Combiner.variance, hm]
  exact e1

/-- **C61.** PRIVACY_ID_COUNT: the value is the number of distinct ids of the partition. -/
theorem C61_privacy_id_count_is_exact (cs : List (Combiner V))
    (comb : List (K × (Combiner.compound cs).Acc) → List (K × (Combiner.compound cs).Acc))
    (hcomb : LawfulCombine (Combiner.compound cs).merge comb) (col : List (P × K × V))
    (hf : p.publicFiltered = true → ∀ ps, pub = some ps → ∀ r ∈ col, r.2.1 ∈ ps) (hb : p.boundsEnforced = false)
    (hw : WithinPartitionBounds p (relevant pub col))
    (hr : (∃ c ∈ cs, c ≠ Combiner.privacyIdCount V) → WithinRowBounds p (relevant pub col))
    (i : Fin cs.length) (hi : cs[i] = Combiner.privacyIdCount V) :
    ∃ out, partitionAccumulators B cs comb keep p pub col = .ok out ∧
      ∀ e ∈ out, (Combiner.readAs _ i hi e.2 : ℕ) = (usersIn e.1 (relevant pub col)).length := by
  have hs : (Combiner.compound cs).sampling = true → WithinRowBounds p (relevant pub col) := by
    intro hs
    obtain ⟨c, hc, hc2⟩ := List.any_eq_true.mp hs
    refine hr ⟨c, hc, ?_⟩
    rintro rfl; exact absurd hc2 (by simp [Combiner.privacyIdCount])
  obtain ⟨out, entries, h1, h2, h3, h4, h5⟩ := output_read B hB p hp cs comb hcomb keep pub col hf
    (fun _ => hw) (fun _ => hs) (Combiner.privacyIdCount V) i hi (fun a : ℕ => a) (fun _ _ => rfl) (fun _ => rfl)
  refine ⟨out, h1, fun e he => (h5 e he).trans ?_⟩
  rw [← (users_perm h2 (h4 hb) h3 e.1).length_eq, List.length_map]
  show ((entries.filter fun x => x.1.2 = e.1).map fun x => if x.2.isEmpty then 0 else 1).sum = _
  have : ∀ x ∈ entries.filter fun x => x.1.2 = e.1, (if x.2.isEmpty then 0 else 1) = 1 := by
    intro x hx
    have := h3 x (List.mem_filter.mp hx).1
    simp [this]
  rw [List.map_congr_left this]
  simp

/-- **C61.** SUM with bounds on the sum per partition: the value is the sum over the ids of the partition of
their clipped sums. -/
theorem C61_sum_per_partition_is_exact (cs : List (Combiner ℚ))
    (comb : List (K × (Combiner.compound cs).Acc) → List (K × (Combiner.compound cs).Acc))
    (hcomb : LawfulCombine (Combiner.compound cs).merge comb) (col : List (P × K × ℚ))
    (hf : p.publicFiltered = true → ∀ ps, pub = some ps → ∀ r ∈ col, r.2.1 ∈ ps) (hb : p.boundsEnforced = false)
    (hw : WithinPartitionBounds p (relevant pub col))
    (hr : (∃ c ∈ cs, c ≠ Combiner.privacyIdCount ℚ ∧ ∀ a b, c ≠ Combiner.sumPerPartition a b) →
      WithinRowBounds p (relevant pub col))
    (lo hi : ℚ) (h0 : pub ≠ none → lo ≤ 0 ∧ 0 ≤ hi)
    (i : Fin cs.length) (h : cs[i] = Combiner.sumPerPartition lo hi) :
    ∃ out, partitionAccumulators B cs comb keep p pub col = .ok out ∧
      ∀ e ∈ out, (Combiner.readAs _ i h e.2 : ℚ)
        = ((usersIn e.1 (relevant pub col)).map fun u =>
            min (max (cell u e.1 (relevant pub col)).sum lo) hi).sum := by
  have hs : (Combiner.compound cs).sampling = true → WithinRowBounds p (relevant pub col) := by
    intro hs
    obtain ⟨c, hc, hc2⟩ := List.any_eq_true.mp hs
    refine hr ⟨c, hc, ?_, ?_⟩
    · rintro rfl; exact absurd hc2 (by simp [Combiner.privacyIdCount])
    · rintro a b rfl; exact absurd hc2 (by simp [Combiner.sumPerPartition])
  obtain ⟨out, entries, h1, h2, h3, h4, h5⟩ := output_read B hB p hp cs comb hcomb keep pub col hf
    (fun _ => hw) (fun _ => hs) (Combiner.sumPerPartition lo hi) i h (fun a : ℚ => a) (fun _ _ => rfl)
    (fun hpub => by
      obtain ⟨ha, hb⟩ := h0 hpub
      simp [Combiner.sumPerPartition, clip, ha, hb])
  refine ⟨out, h1, fun e he => (h5 e he).trans ?_⟩
  exact entries_sum_users (fun vs : List ℚ => clip lo hi vs.sum) (fun a b hab => by rw [hab.sum_eq]) e.1 h2 (h4 hb) h3

omit hB hp in
/-- Coordinate `j` of a vector accumulator. -/
def coord (j : ℕ) : Combiner.VecAcc → ℚ
  | .vec v => v.getD j 0
  | _ => 0

omit hB hp in
/-- A vector accumulator of length `n`. -/
def IsVec (n : ℕ) (a : Combiner.VecAcc) : Prop := ∃ v, a = .vec v ∧ v.length = n

omit hB hp in
theorem getD_zipWith_add (a b : List ℚ) (h : a.length = b.length) (j : ℕ) :
    (List.zipWith (· + ·) a b).getD j 0 = a.getD j 0 + b.getD j 0 := by
  induction a generalizing b j with
  | nil => cases b with
    | nil => simp
    | cons y b => simp at h
  | cons x a ih =>
    cases b with
    | nil => simp at h
    | cons y b =>
      cases j with
      | zero => simp
      | succ j => simpa using ih b (by simpa using h) j

omit hB hp in
theorem vecFold (n : ℕ) (vs : List (List ℚ)) (a : Combiner.VecAcc) (ha : IsVec n a) (h : ∀ v ∈ vs, v.length = n) :
    IsVec n (vs.foldl (Combiner.vecStep n) a) ∧
      ∀ j, coord j (vs.foldl (Combiner.vecStep n) a) = coord j a + (vs.map fun v => v.getD j 0).sum := by
  induction vs generalizing a with
  | nil => exact ⟨ha, fun j => by simp⟩
  | cons v vs ih =>
    obtain ⟨w, rfl, hw⟩ := ha
    have hv : v.length = n := h v (by simp)
    have h1 : Combiner.vecStep n (.vec w) v = .vec (List.zipWith (· + ·) w v) := by
      simp [Combiner.vecStep, hv]
    rw [List.foldl_cons, h1]
    obtain ⟨h2, h3⟩ := ih (.vec (List.zipWith (· + ·) w v)) ⟨_, rfl, by simp [hw, hv]⟩
      fun v hv => h v (by simp [hv])
    refine ⟨h2, fun j => ?_⟩
    rw [h3 j, List.map_cons, List.sum_cons]
    simp only [coord]
    rw [getD_zipWith_add w v (hw.trans hv.symm)]
    ring

omit hB hp in
/-- **C18.** The accumulator of a user whose vectors all have the declared size is their coordinate-wise sum;
a vector of another size, wherever it is among the values, is an error. -/
theorem C18_user_accumulator (n : ℕ) (vs : List (List ℚ)) :
    ((∀ v ∈ vs, v.length = n) → vs ≠ [] → ∃ s, (Combiner.vectorSum n).create vs = Combiner.VecAcc.vec s ∧
      s.length = n ∧ ∀ j, s.getD j 0 = (vs.map fun v => v.getD j 0).sum) ∧
    ((∃ v ∈ vs, v.length ≠ n) → (Combiner.vectorSum n).create vs = Combiner.VecAcc.error) := by
  constructor
  · intro h hne
    cases vs with
    | nil => exact absurd rfl hne
    | cons v vs =>
      have hv : v.length = n := h v (by simp)
      have h1 : Combiner.vecStep n .empty v = .vec v := by simp [Combiner.vecStep, hv]
      obtain ⟨⟨s, h2, h3⟩, h4⟩ := vecFold n vs (.vec v) ⟨v, rfl, hv⟩ fun v hv => h v (by simp [hv])
      refine ⟨s, ?_, h3, fun j => ?_⟩
      · show (v :: vs).foldl (Combiner.vecStep n) .empty = _
        rw [List.foldl_cons, h1, h2]
      · have := h4 j
        rw [h2] at this
        simpa [coord] using this
  · rintro ⟨v, hv, hne⟩
    have herr : ∀ l : List (List ℚ), l.foldl (Combiner.vecStep n) .error = .error := by
      intro l
      induction l with
      | nil => rfl
      | cons x l ih => simpa [Combiner.vecStep] using ih
    have : ∀ (l : List (List ℚ)) (a : Combiner.VecAcc), v ∈ l → l.foldl (Combiner.vecStep n) a = .error := by
      intro l
      induction l with
      | nil => intro a h; simp at h
      | cons x l ih =>
        intro a h
        rw [List.foldl_cons]
        rcases List.mem_cons.mp h with rfl | h
        · have : Combiner.vecStep n a v = .error := by
            cases a <;> simp [Combiner.vecStep, hne]
          rw [this, herr]
        · exact ih _ h
    exact this vs _ hv

example : (Combiner.vectorSum 2).create [[1, 2], [3, 4]] = Combiner.VecAcc.vec [4, 6] ∧
    (Combiner.vectorSum 2).create [[1, 2], [3]] = Combiner.VecAcc.error ∧
    (Combiner.vectorSum 2).create [[3], [1, 2]] = Combiner.VecAcc.error := by
  refine ⟨?_, ?_, ?_⟩ <;> simp [Combiner.vectorSum, Combiner.vecStep]
  norm_num

omit hB hp in
theorem vecMerge_tree (n : ℕ) (t : MergeTree Combiner.VecAcc) (h : ∀ a ∈ t.leaves, IsVec n a) :
    IsVec n (t.eval Combiner.vecMerge) ∧
      ∀ j, coord j (t.eval Combiner.vecMerge) = (t.leaves.map (coord j)).sum := by
  induction t with
  | leaf a => exact ⟨h a (by simp [MergeTree.leaves]), fun j => by simp [MergeTree.leaves, MergeTree.eval]⟩
  | node l r ihl ihr =>
    obtain ⟨⟨a, ha, ha'⟩, hl⟩ := ihl fun x hx => h x (by simp [MergeTree.leaves, hx])
    obtain ⟨⟨b, hb, hb'⟩, hr⟩ := ihr fun x hx => h x (by simp [MergeTree.leaves, hx])
    have he : (MergeTree.node l r).eval Combiner.vecMerge = .vec (List.zipWith (· + ·) a b) := by
      simp [MergeTree.eval, ha, hb, Combiner.vecMerge]
    refine ⟨⟨_, he, by simp [ha', hb']⟩, fun j => ?_⟩
    rw [he, MergeTree.leaves, List.map_append, List.sum_append, ← hl j, ← hr j, ha, hb]
    simp only [coord]
    exact getD_zipWith_add a b (ha'.trans hb'.symm) j

/-- **C61.** VECTOR_SUM without public partitions, with vectors of the declared size: the value before clipping
and noise is the coordinate-wise sum of the vectors of the partition. -/
theorem C61_vector_sum_is_exact (cs : List (Combiner (List ℚ)))
    (comb : List (K × (Combiner.compound cs).Acc) → List (K × (Combiner.compound cs).Acc))
    (hcomb : LawfulCombine (Combiner.compound cs).merge comb) (col : List (P × K × List ℚ))
    (hw : p.boundsEnforced = false → WithinPartitionBounds p col ∧ WithinRowBounds p col)
    (n : ℕ) (hlen : ∀ r ∈ col, r.2.2.length = n) (i : Fin cs.length) (h : cs[i] = Combiner.vectorSum n) :
    ∃ out, partitionAccumulators B cs comb keep p none col = .ok out ∧
      ∀ e ∈ out, ∃ s, (Combiner.readAs _ i h e.2 : Combiner.VecAcc) = .vec s ∧ s.length = n ∧
        ∀ j, s.getD j 0 = ((valuesIn e.1 col).map fun v => v.getD j 0).sum := by
  obtain ⟨out, entries, h1, h2, h3, h4, h5⟩ := output_entries B hB p hp cs comb hcomb keep none col
    (fun _ ps h => nomatch h) (fun h => (hw h).1) (fun h _ => (hw h).2)
  have hvec : ∀ x ∈ entries, ∀ v ∈ x.2, v.length = n := by
    intro x hx v hv
    have hm : (x.1.1, x.1.2, v) ∈ rowsBehind entries := by
      unfold rowsBehind
      rw [List.mem_flatMap]
      exact ⟨x, hx, List.mem_map.mpr ⟨v, hv, rfl⟩⟩
    exact hlen _ (h2.mem_iff.mp hm)
  refine ⟨out, h1, fun e he => ?_⟩
  obtain ⟨t, m, hm, ht1, ht2⟩ := h5 e he
  rw [hm rfl, List.replicate_zero, List.append_nil] at ht1
  have hread : (Combiner.readAs (Combiner.vectorSum n) i h e.2 : Combiner.VecAcc)
      = (t.map (Combiner.readAs (Combiner.vectorSum n) i h)).eval Combiner.vecMerge := by
    rw [ht2]
    clear ht1 ht2
    have hstep : ∀ a b, Combiner.readAs (Combiner.vectorSum n) i h ((Combiner.compound cs).merge a b)
        = Combiner.vecMerge (Combiner.readAs (Combiner.vectorSum n) i h a)
            (Combiner.readAs (Combiner.vectorSum n) i h b) := by
      intro a b
      have h6 := (C20_compound_merges_componentwise cs (.node (.leaf a) (.leaf b)) i).2
      simp only [MergeTree.eval, MergeTree.map] at h6
      have h7 : ∀ (c : Combiner (List ℚ)) (hc : cs[i] = c),
          Combiner.readAs c i hc ((Combiner.compound cs).merge a b)
            = c.merge (Combiner.readAs c i hc a) (Combiner.readAs c i hc b) := by
        intro c hc; subst hc; exact h6
      exact h7 _ h
    induction t with
    | leaf a => rfl
    | node l r ihl ihr =>
      simp only [MergeTree.eval, MergeTree.map]
      rw [hstep, ihl, ihr]
  have hleaves : ∀ t : MergeTree (Combiner.compound cs).Acc,
      (t.map (Combiner.readAs (Combiner.vectorSum n) i h)).leaves
        = t.leaves.map (Combiner.readAs (Combiner.vectorSum n) i h) := by
    intro t
    induction t with
    | leaf a => rfl
    | node l r ihl ihr => simp [MergeTree.map, MergeTree.leaves, ihl, ihr]
  have hcreate : ∀ x ∈ entries, ∃ s, (Combiner.vectorSum n).create x.2 = Combiner.VecAcc.vec s ∧ s.length = n ∧
      ∀ j, s.getD j 0 = (x.2.map fun v => v.getD j 0).sum :=
    fun x hx => (C18_user_accumulator n x.2).1 (hvec x hx) (h3 x hx)
  have hperm := ht1.map (Combiner.readAs (Combiner.vectorSum n) i h)
  rw [List.map_map] at hperm
  have hmem : ∀ a ∈ (t.map (Combiner.readAs (Combiner.vectorSum n) i h)).leaves, IsVec n a := by
    intro a ha
    rw [hleaves] at ha
    obtain ⟨x, hx, rfl⟩ := List.mem_map.mp (hperm.mem_iff.mp ha)
    obtain ⟨s, hs1, hs2, -⟩ := hcreate x (List.mem_filter.mp hx).1
    refine ⟨s, ?_, hs2⟩
    simp only [Function.comp_apply]
    rw [readAs_create]; exact hs1
  obtain ⟨⟨s, hs1, hs2⟩, hs3⟩ := vecMerge_tree n _ hmem
  refine ⟨s, hread.trans hs1, hs2, fun j => ?_⟩
  have h6 := hs3 j
  rw [hs1] at h6
  refine h6.trans ?_
  have h7 : (t.map (Combiner.readAs (Combiner.vectorSum n) i h)).leaves.Perm _ := (hleaves t) ▸ hperm
  refine ((h7.map (coord j)).sum_eq).trans ?_
  have h8 := entries_sum_rows (fun v : List ℚ => v.getD j 0) e.1 h2
  refine Eq.trans (congrArg List.sum ?_) h8
  refine (List.map_map ..).trans (List.map_congr_left fun x hx => ?_)
  obtain ⟨s', hs1', -, hs3'⟩ := hcreate x (List.mem_filter.mp hx).1
  exact (congrArg (coord j) ((readAs_create cs _ i h x.2).trans hs1')).trans (hs3' j)

/-- **C24.** With post-aggregation thresholding, or when the caller declares the partitions as already selected,
no private selection is made: whatever the selector would answer, the partitions of the output are exactly the
partitions with data left after bounding. -/
theorem C24_no_selection_if_thresholding_or_filtered (cs : List (Combiner V))
    (comb : List (K × (Combiner.compound cs).Acc) → List (K × (Combiner.compound cs).Acc))
    (hcomb : LawfulCombine (Combiner.compound cs).merge comb) (col : List (P × K × V))
    (h : p.postThresholding = true ∨ p.publicFiltered = true) :
    ∃ out entries, partitionAccumulators B cs comb keep p none col = .ok out ∧
      BoundedEntries p (Combiner.compound cs).sampling col entries ∧ (out.map Prod.fst).Nodup ∧
      (∀ k, k ∈ out.map Prod.fst ↔ idsIn k entries ≠ []) ∧
      ∀ keep', partitionAccumulators B cs comb keep' p none col = .ok out := by
  obtain ⟨entries, h1, h2⟩ := accumulators_entries B hB p hp (Combiner.compound cs).sampling
    (Combiner.compound cs).create none col
  have hd : dropPartitions p none col = col := rfl
  rw [hd] at h1
  simp only [addEmptyPublic] at h2
  have hsel : selectsPrivately p (none : Option (List K)) = false := by
    rcases h with h | h <;> simp [selectsPrivately, h]
  have hC := hcomb (entries.map fun e => (e.1.2, (Combiner.compound cs).create e.2))
  have hout : ∀ keep', partitionAccumulators B cs comb keep' p none col
      = .ok (comb (entries.map fun e => (e.1.2, (Combiner.compound cs).create e.2))) := by
    intro keep'
    simp [partitionAccumulators, h2, hsel, bind, Except.bind, pure, Except.pure]
  refine ⟨_, entries, hout keep, h1, hC.nodup, fun k => ?_, hout⟩
  rw [hC.keys, ← valuesOf_ne_nil, valuesOf_entries]
  unfold idsIn
  rw [ne_eq, ne_eq, List.dedup_eq_nil, List.map_eq_nil_iff, List.map_eq_nil_iff]

end Metrics

/-! ### Examples -/

/-- Ids 1 and 2; id 1 has two rows in partition 10 and one in 20. -/
def exactRows : List (ℕ × ℕ × ℚ) := [(1, 10, 3), (2, 10, 9), (1, 20, -1), (1, 10, 4)]

def exactParams : Params :=
  { metrics := [.count, .privacyIdCount, .sum], maxPartitions := some 2, maxPerPartition := some 2 }

theorem exactParams_valid : exactParams.BoundsValid := Or.inr ⟨2, 2, by decide, by decide, rfl, rfl, rfl⟩

theorem exactRows_partitions : WithinPartitionBounds exactParams exactRows := by
  intro u
  refine ⟨fun m hm => (nomatch hm), fun _ l0 hl => ?_⟩
  obtain rfl : 2 = l0 := by simpa [exactParams] using hl
  refine (List.subperm_of_subset (l₂ := [10, 20]) (partitionsOf_nodup _ _) ?_).length_le
  intro k hk
  unfold partitionsOf at hk
  rw [List.mem_dedup, List.mem_map] at hk
  obtain ⟨r, hr, rfl⟩ := hk
  have := List.mem_of_mem_filter hr
  revert this
  generalize r = r
  intro h
  simp only [exactRows, List.mem_cons, List.not_mem_nil, or_false] at h
  rcases h with rfl | rfl | rfl | rfl <;> simp

theorem exactRows_rows : WithinRowBounds exactParams exactRows := by
  intro u k linf hl
  obtain rfl : 2 = linf := by simpa [exactParams] using hl
  by_cases hu : u = 1
  · subst hu
    by_cases hk : k = 10
    · subst hk; decide +kernel
    · unfold cell exactRows
      simp only [List.filter_cons, List.filter_nil]
      have : ¬ 10 = k := fun h => hk h.symm
      simp only [this]
      by_cases h2 : 20 = k <;> simp [h2]
  · have h1 : ¬ 1 = u := fun h => hu h.symm
    unfold cell exactRows
    simp only [List.filter_cons, List.filter_nil, h1]
    by_cases h2 : 2 = u ∧ 10 = k
    · obtain ⟨rfl, rfl⟩ := h2; simp
    · simp [h2]

/-- The hypotheses of the theorems hold for `exactRows` with COUNT, PRIVACY_ID_COUNT and both kinds of SUM. -/
example := C61_count_is_exact (P := ℕ) (K := ℕ) (localBackend firstRng) (C39_local_backend_lawful _) exactParams
  exactParams_valid (fun _ _ => true) none
  [Combiner.count ℚ, Combiner.privacyIdCount ℚ, Combiner.sumPerValue 0 5, Combiner.sumPerPartition 0 5]
  (localCombine _) (localCombine_lawful _) exactRows (fun _ _ h => nomatch h)
  (fun _ => ⟨exactRows_partitions, exactRows_rows⟩) 0 rfl

example := C61_sum_per_partition_is_exact (P := ℕ) (K := ℕ) (localBackend firstRng) (C39_local_backend_lawful _)
  exactParams exactParams_valid (fun _ _ => true) none [Combiner.privacyIdCount ℚ, Combiner.sumPerPartition 0 5]
  (localCombine _) (localCombine_lawful _) exactRows (fun _ _ h => nomatch h) rfl exactRows_partitions
  (fun _ => exactRows_rows) 0 5 (fun h => absurd rfl h) 1 rfl

/-- The values: partition 10 has 3 rows, 2 ids, clipped values 3 + 5 + 4 and clipped sums 5 + 5. -/
example : (valuesIn 10 exactRows).length = 3 ∧ (usersIn 10 exactRows).length = 2 ∧
    ((valuesIn 10 exactRows).map fun v => min (max v 0) 5).sum = 12 ∧
    ((usersIn 10 exactRows).map fun u => min (max (cell u 10 exactRows).sum 0) 5).sum = 10 := by decide +kernel

example :
    (do let out ← partitionAccumulators (localBackend firstRng)
          [Combiner.count ℚ, Combiner.privacyIdCount ℚ, Combiner.sumPerValue 0 5, Combiner.sumPerPartition 0 5]
          (localCombine (Combiner.compound [Combiner.count ℚ, Combiner.privacyIdCount ℚ, Combiner.sumPerValue 0 5,
            Combiner.sumPerPartition 0 5]).merge)
          (fun _ _ => true) exactParams none exactRows
        return out.map fun e => (e.1, e.2.2.1, e.2.2.2.1))
      = Except.ok [(10, (3 : ℕ), (2 : ℕ)), (20, (1 : ℕ), (1 : ℕ))] := by rfl

/-- Post-aggregation thresholding: the selector that refuses everything is not asked. -/
example :
    (do let out ← partitionAccumulators (localBackend firstRng) [Combiner.privacyIdCount ℚ]
          (localCombine (Combiner.compound [Combiner.privacyIdCount ℚ]).merge)
          (fun _ _ => false) { exactParams with postThresholding := true } none exactRows
        return out.map Prod.fst) = Except.ok [10, 20] := by rfl

end PDP.Engine
