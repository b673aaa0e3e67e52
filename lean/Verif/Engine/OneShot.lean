import Verif.Engine.Exact
import Verif.Backend.KeyFilter

/-!
# Public partitions that can be iterated only once (C81)

`LocalBackend` is lazy: its operations return generators.  If the public partitions of `aggregate` are a generator themselves
(for instance the result of `select_partitions`), then `filter_by_key` and the empty accumulators read the same generator.
The combination by key (`pipeline_backend.py:503-511, 555-565`) pulls all data accumulators first, and by that all rows through
the filter, and then the empty accumulators from what is left of the generator.
-/

set_option linter.unusedSectionVars false

namespace PDP.Engine

open PDP.Backend (consume)

variable {P K V A : Type} [DecidableEq P] [DecidableEq K]

/-- `LocalBackend.filter_by_key` (`pipeline_backend.py:517-523`) over `_drop_partitions` (`dp_engine.py:292-298`) with a generator
of public partitions: the rows that pass, and the rest of the generator.  `row[1] in generator` reads the generator up to the
first match. -/
def drain : List (P × K × V) → List K → List (P × K × V) × List K
  | [], gen => ([], gen)
  | r :: col, gen =>
    let c := consume r.2.1 gen
    let d := drain col c.2
    if c.1 then (r :: d.1, d.2) else d

/-- `dp_engine.py:123-155` on `LocalBackend` with a generator of public partitions (`if public_partitions:` is true for every
generator). -/
def oneShotAccumulators (B : Backend) (p : Params) (sampling : Bool) (create : List V → A) (gen : List K)
    (col : List (P × K × V)) : Except Err (List (K × A)) := do
  let (rows, rest) := if p.publicFiltered then (col, gen) else drain col gen
  let d ← dataAccumulators B p sampling create none rows
  return d ++ rest.map fun k => (k, create [])

/-- `dp_engine.py:109-179` on `LocalBackend` with a generator of public partitions; there is no private selection. -/
def oneShotPartitions (B : Backend) (cs : List (Combiner V))
    (comb : List (K × (Combiner.compound cs).Acc) → List (K × (Combiner.compound cs).Acc)) (p : Params) (gen : List K)
    (col : List (P × K × V)) : Except Err (List (K × (Combiner.compound cs).Acc)) := do
  let accs ← oneShotAccumulators B p (Combiner.compound cs).sampling (Combiner.compound cs).create gen col
  return comb accs

/-! ### What the filter reads -/

theorem consume_of_mem {k : K} {gen : List K} (h : k ∈ gen) :
    ∃ skipped rest, gen = skipped ++ k :: rest ∧ k ∉ skipped ∧ consume k gen = (true, rest) := by
  induction gen with
  | nil => cases h
  | cons x gen ih =>
    by_cases hx : x = k
    · exact ⟨[], gen, by simp [hx], by simp, by simp [consume, hx]⟩
    · obtain ⟨s, r, h1, h2, h3⟩ := ih (by simpa [Ne.symm hx] using h)
      exact ⟨x :: s, r, by simp [h1], by simp [Ne.symm hx, h2], by simp [consume, hx, h3]⟩

theorem consume_of_notMem {k : K} {gen : List K} (h : k ∉ gen) : consume k gen = (false, []) := by
  induction gen with
  | nil => rfl
  | cons x gen ih =>
    simp only [List.mem_cons, not_or] at h
    simp [consume, Ne.symm h.1, ih h.2]

theorem drain_exhausted (col : List (P × K × V)) : drain col ([] : List K) = ([], []) := by
  induction col with
  | nil => rfl
  | cons r col ih => simp [drain, consume, ih]

theorem drain_rows_sublist (col : List (P × K × V)) (gen : List K) : (drain col gen).1.Sublist col := by
  induction col generalizing gen with
  | nil => simp [drain]
  | cons r col ih =>
    unfold drain
    dsimp only
    split
    · exact (ih _).cons_cons r
    · exact (ih _).cons r

theorem drain_keys_sublist (col : List (P × K × V)) (gen : List K) :
    ((drain col gen).1.map (fun r => r.2.1) ++ (drain col gen).2).Sublist gen := by
  induction col generalizing gen with
  | nil => simp [drain]
  | cons r col ih =>
    by_cases h : r.2.1 ∈ gen
    · obtain ⟨s, rest, h1, -, h3⟩ := consume_of_mem h
      simp only [drain, h3, if_true, List.map_cons, List.cons_append]
      rw [h1]
      exact ((ih rest).cons_cons _).trans (List.sublist_append_right _ _)
    · simp [drain, consume_of_notMem h, drain_exhausted]

/-- The filter skips no public partition exactly if the rows come in the order of the public partitions. -/
theorem drain_complete_iff (col : List (P × K × V)) {gen : List K} (hn : gen.Nodup) :
    (∀ k ∈ gen, k ∈ (drain col gen).1.map (fun r => r.2.1) ++ (drain col gen).2) ↔
      (col.map (fun r => r.2.1) <+: gen ∨ gen <+: col.map fun r => r.2.1) := by
  induction col generalizing gen with
  | nil => simp [drain]
  | cons r col ih =>
    cases gen with
    | nil => simp
    | cons x gen =>
      by_cases hx : x = r.2.1
      · subst hx
        have hc : consume r.2.1 (r.2.1 :: gen) = (true, gen) := by simp [consume]
        obtain ⟨hx1, hn'⟩ := List.nodup_cons.mp hn
        simp only [drain, hc, if_true, List.map_cons, List.cons_append, List.mem_cons, List.cons_prefix_cons, true_and]
        rw [← ih hn']
        constructor
        · intro h k hk
          rcases h k (.inr hk) with rfl | h
          · exact absurd hk hx1
          · exact h
        · rintro h k (rfl | hk)
          · exact .inl rfl
          · exact .inr (h k hk)
      · have h1 : ¬(r.2.1 :: col.map (fun r => r.2.1) <+: x :: gen ∨ x :: gen <+: r.2.1 :: col.map fun r => r.2.1) := by
          simp [List.cons_prefix_cons, hx, Ne.symm hx]
        simp only [List.map_cons, h1, iff_false]
        intro h
        have hm := h x (by simp)
        by_cases hr : r.2.1 ∈ x :: gen
        · obtain ⟨s, rest, e1, -, e3⟩ := consume_of_mem hr
          simp only [drain, e3, if_true, List.map_cons, List.cons_append, List.mem_cons, hx, false_or] at hm
          have := (drain_keys_sublist col rest).subset hm
          cases s with
          | nil => simp only [List.nil_append, List.cons.injEq] at e1; exact hx e1.1
          | cons y s =>
            simp only [List.cons_append, List.cons.injEq] at e1
            refine (List.nodup_cons.mp hn).1 ?_
            rw [e1.2]
            simp [this]
        · simp [drain, consume_of_notMem hr, drain_exhausted] at hm

/-! ### Specification -/

/-- The keys of a result. -/
def resultKeys {A : Type} (out : List (K × A)) : List K := out.map Prod.fst

/-- What the documentation of `public_partitions` promises: exactly these partitions are in the result. -/
def HasExactly {A : Type} (ps : List K) (out : List (K × A)) : Prop :=
  (resultKeys out).Nodup ∧ ∀ k, k ∈ resultKeys out ↔ k ∈ ps

/-! ### The result -/

theorem dataAccumulators_lossless (B : Backend) (hB : B.Lawful) (p : Params) (hp : p.BoundsValid) (sampling : Bool)
    (create : List V → A) (rows : List (P × K × V))
    (hw : p.boundsEnforced = false → WithinPartitionBounds p rows ∧ WithinRowBounds p rows) :
    ∃ d, dataAccumulators B p sampling create none rows = .ok d ∧
      ∀ k, k ∈ d.map Prod.fst ↔ k ∈ rows.map fun r => r.2.1 := by
  cases he : p.boundsEnforced with
  | true =>
    refine ⟨rows.map fun r => (r.2.1, create [r.2.2]), ?_, ?_⟩
    · simp [dataAccumulators, dropPartitions, he, pure, Except.pure, Function.comp_def]
    · intro k; simp
  | false =>
    obtain ⟨b, h1, kept, h2, h3, h4⟩ := run_lossless B hB p hp sampling create rows (hw he).1 fun _ => (hw he).2
    refine ⟨kept.map fun e => (e.1.2, create e.2), ?_, ?_⟩
    · simp [dataAccumulators, dropPartitions, he, h1, h2, bind, Except.bind, pure, Except.pure, Function.comp_def]
    · intro k
      rw [← (h4.map fun r => r.2.1).mem_iff]
      simp only [rowsBehind, List.mem_map, List.mem_flatMap]
      constructor
      · rintro ⟨_, ⟨x, hx, rfl⟩, rfl⟩
        obtain ⟨v, hv⟩ := List.exists_mem_of_ne_nil _ (h3.nonempty x hx)
        exact ⟨(x.1.1, x.1.2, v), ⟨x, hx, v, hv, rfl⟩, rfl⟩
      · rintro ⟨r, ⟨x, hx, v, hv, rfl⟩, rfl⟩
        exact ⟨_, ⟨x, hx, rfl⟩, rfl⟩

theorem oneShot_result (B : Backend) (hB : B.Lawful) (p : Params) (hp : p.BoundsValid) (cs : List (Combiner V))
    (comb : List (K × (Combiner.compound cs).Acc) → List (K × (Combiner.compound cs).Acc))
    (hcomb : LawfulCombine (Combiner.compound cs).merge comb) (gen : List K) (col : List (P × K × V))
    (hpf : p.publicFiltered = false)
    (hw : p.boundsEnforced = false → WithinPartitionBounds p (drain col gen).1 ∧ WithinRowBounds p (drain col gen).1) :
    ∃ out, oneShotPartitions B cs comb p gen col = .ok out ∧ (resultKeys out).Nodup ∧
      ∀ k, k ∈ resultKeys out ↔ k ∈ (drain col gen).1.map (fun r => r.2.1) ++ (drain col gen).2 := by
  obtain ⟨d, h1, h2⟩ := dataAccumulators_lossless B hB p hp (Combiner.compound cs).sampling (Combiner.compound cs).create
    (drain col gen).1 hw
  refine ⟨comb (d ++ (drain col gen).2.map fun k => (k, (Combiner.compound cs).create [])), ?_, (hcomb _).nodup, ?_⟩
  · simp [oneShotPartitions, oneShotAccumulators, hpf, h1, bind, Except.bind, pure, Except.pure]
  · intro k
    refine ((hcomb _).keys k).trans ?_
    rw [List.map_append, List.mem_append, List.mem_append, h2 k]
    simp

theorem withinPartitionBounds_sublist {p : Params} {a b : List (P × K × V)} (h : a.Sublist b) (hb : WithinPartitionBounds p b) :
    WithinPartitionBounds p a := by
  intro u
  obtain ⟨h1, h2⟩ := hb u
  refine ⟨fun m hm => ((h.filter _).length_le).trans (h1 m hm), fun hc l0 hl => le_trans ?_ (h2 hc l0 hl)⟩
  refine List.Subperm.length_le (List.subperm_of_subset (List.nodup_dedup _) ?_)
  intro k hk
  unfold partitionsOf at hk ⊢
  rw [List.mem_dedup] at hk ⊢
  exact ((h.filter _).map _).subset hk

theorem withinRowBounds_sublist {p : Params} {a b : List (P × K × V)} (h : a.Sublist b) (hb : WithinRowBounds p b) :
    WithinRowBounds p a := by
  intro u k linf hl
  exact (((h.filter _).map _).length_le).trans (hb u k linf hl)

/-- **C81** (when the result is complete).  Public partitions given as a generator on `LocalBackend`, each of them listed once.
Let no privacy id exceed its bounds.  The result has exactly the public partitions if and only if the rows arrive in the order in
which the public partitions are listed, at most one per partition, and further rows at most after all partitions have had their
row. -/
theorem C81_complete_iff_rows_in_listed_order (B : Backend) (hB : B.Lawful) (p : Params) (hp : p.BoundsValid)
    (cs : List (Combiner V)) (comb : List (K × (Combiner.compound cs).Acc) → List (K × (Combiner.compound cs).Acc))
    (hcomb : LawfulCombine (Combiner.compound cs).merge comb) (gen : List K) (hn : gen.Nodup) (col : List (P × K × V))
    (hpf : p.publicFiltered = false)
    (hw : p.boundsEnforced = false → WithinPartitionBounds p col ∧ WithinRowBounds p col) :
    ∃ out, oneShotPartitions B cs comb p gen col = .ok out ∧
      (HasExactly gen out ↔ (col.map (fun r => r.2.1) <+: gen ∨ gen <+: col.map fun r => r.2.1)) := by
  obtain ⟨out, h1, h2, h3⟩ := oneShot_result B hB p hp cs comb hcomb gen col hpf fun h =>
    ⟨withinPartitionBounds_sublist (drain_rows_sublist col gen) (hw h).1, withinRowBounds_sublist (drain_rows_sublist col gen) (hw h).2⟩
  refine ⟨out, h1, ?_⟩
  rw [← drain_complete_iff col hn]
  constructor
  · rintro ⟨-, h⟩ k hk
    exact (h3 k).mp ((h k).mpr hk)
  · intro h
    refine ⟨h2, fun k => ⟨fun hk => (drain_keys_sublist col gen).subset ((h3 k).mp hk), fun hk => (h3 k).mpr (h k hk)⟩⟩

/-- **C81** (rows that are used).  Whatever the data is, the result is the one of `aggregate` on a part of the rows, and this part has
at most one row in each public partition (one per listing) and none elsewhere. -/
theorem C81_at_most_one_row_per_partition (B : Backend) (p : Params) (cs : List (Combiner V))
    (comb : List (K × (Combiner.compound cs).Acc) → List (K × (Combiner.compound cs).Acc)) (keep : K → ℕ → Bool) (gen : List K)
    (col : List (P × K × V)) (hpf : p.publicFiltered = false) :
    ∃ used rest, used.Sublist col ∧ rest.Sublist gen ∧
      (∀ k, (used.filter fun r => r.2.1 = k).length + rest.count k ≤ gen.count k) ∧
      oneShotPartitions B cs comb p gen col
        = partitionAccumulators B cs comb keep { p with publicFiltered := true } (some rest) used := by
  refine ⟨(drain col gen).1, (drain col gen).2, drain_rows_sublist col gen,
    (List.sublist_append_right _ _).trans (drain_keys_sublist col gen), fun k => ?_, ?_⟩
  · have := (drain_keys_sublist col gen).count_le k
    rw [List.count_append] at this
    refine le_trans (le_of_eq ?_) this
    congr 1
    rw [List.count, List.countP_map, List.countP_eq_length_filter]
    congr 2
  · have hd : dataAccumulators B { p with publicFiltered := true } (Combiner.compound cs).sampling (Combiner.compound cs).create
        (some (drain col gen).2) (drain col gen).1
        = dataAccumulators B p (Combiner.compound cs).sampling (Combiner.compound cs).create none (drain col gen).1 := rfl
    simp only [oneShotPartitions, oneShotAccumulators, partitionAccumulators, accumulators, hd, hpf, selectsPrivately,
      Option.isNone_some, Bool.false_and, Bool.false_eq_true, if_false, addEmptyPublic]

theorem drain_foreign (pre post : List (P × K × V)) (r : P × K × V) (gen : List K) (hr : r.2.1 ∉ gen) :
    drain (pre ++ r :: post) gen = ((drain pre gen).1, []) := by
  induction pre generalizing gen with
  | nil => simp [drain, consume_of_notMem hr, drain_exhausted]
  | cons x pre ih =>
    have hsub : (consume x.2.1 gen).2.Sublist gen := by
      by_cases h : x.2.1 ∈ gen
      · obtain ⟨s, rest, e1, -, e3⟩ := consume_of_mem h
        rw [e3, e1]
        exact (List.sublist_cons_self _ _).trans (List.sublist_append_right _ _)
      · rw [consume_of_notMem h]; simp
    have := ih (consume x.2.1 gen).2 fun h => hr (hsub.subset h)
    simp only [List.cons_append, drain, this]
    split <;> rfl

/-- **C81** (one row outside of the public partitions).  After the first row whose partition is not public, no row is used and no
public partition is added: the result is the same for all further rows, and it has only partitions of the rows before. -/
theorem C81_foreign_row_ends_the_input (B : Backend) (hB : B.Lawful) (p : Params) (hp : p.BoundsValid) (cs : List (Combiner V))
    (comb : List (K × (Combiner.compound cs).Acc) → List (K × (Combiner.compound cs).Acc))
    (hcomb : LawfulCombine (Combiner.compound cs).merge comb) (gen : List K) (pre : List (P × K × V)) (r : P × K × V)
    (hr : r.2.1 ∉ gen) (hpf : p.publicFiltered = false)
    (hw : p.boundsEnforced = false → WithinPartitionBounds p pre ∧ WithinRowBounds p pre) :
    ∃ out, (∀ post, oneShotPartitions B cs comb p gen (pre ++ r :: post) = .ok out) ∧
      ∀ k ∈ resultKeys out, k ∈ pre.map fun r => r.2.1 := by
  have hd := drain_foreign pre [] r gen hr
  obtain ⟨out, h1, -, h3⟩ := oneShot_result B hB p hp cs comb hcomb gen (pre ++ [r]) hpf fun h => by
    rw [hd]
    exact ⟨withinPartitionBounds_sublist (drain_rows_sublist pre gen) (hw h).1,
      withinRowBounds_sublist (drain_rows_sublist pre gen) (hw h).2⟩
  refine ⟨out, fun post => ?_, fun k hk => ?_⟩
  · rw [← h1]
    simp only [oneShotPartitions, oneShotAccumulators, hpf, Bool.false_eq_true, if_false, drain_foreign pre _ r gen hr]
  · have := (h3 k).mp hk
    rw [hd, List.append_nil] at this
    exact ((drain_rows_sublist pre gen).map _).subset this

/-- **C81** (filtered data).  With `public_partitions_already_filtered=True` the generator is read once, and the result is the one
for a list of public partitions. -/
theorem C81_filtered_data_reads_once (B : Backend) (p : Params) (cs : List (Combiner V))
    (comb : List (K × (Combiner.compound cs).Acc) → List (K × (Combiner.compound cs).Acc)) (keep : K → ℕ → Bool) (gen : List K)
    (col : List (P × K × V)) (hpf : p.publicFiltered = true) :
    oneShotPartitions B cs comb p gen col = partitionAccumulators B cs comb keep p (some gen) col := by
  have hd : dataAccumulators B p (Combiner.compound cs).sampling (Combiner.compound cs).create (some gen) col
      = dataAccumulators B p (Combiner.compound cs).sampling (Combiner.compound cs).create none col := by
    simp [dataAccumulators, dropPartitions, hpf]
  simp only [oneShotPartitions, oneShotAccumulators, partitionAccumulators, accumulators, hd, hpf, if_true, selectsPrivately,
    Option.isNone_some, Bool.false_and, Bool.false_eq_true, if_false, addEmptyPublic]

/-! ### Examples -/

/-- Two rows in the first public partition, one in the third. -/
example : drain [(7, "a", 1), (8, "a", 1), (8, "c", 5)] ["a", "b", "c"] = ([(7, "a", 1)], []) := by decide +kernel

/-- In the order of the listing nothing is lost. -/
example : drain [(7, "a", 1), (8, "b", 1)] ["a", "b", "c"] = ([(7, "a", 1), (8, "b", 1)], ["c"]) := by decide +kernel

/-- The caller has enforced the bounds. -/
def oneShotParams : Params where
  metrics := [.count]
  maxPartitions := some 2
  maxPerPartition := some 1
  boundsEnforced := true

example (rng) : ∃ out, oneShotPartitions (localBackend rng) [] (localCombine (Combiner.compound ([] : List (Combiner ℚ))).merge)
      oneShotParams ["a", "b", "c"] [(7, "a", (1 : ℚ)), (8, "a", 1), (8, "c", 5)] = .ok out ∧ ¬ HasExactly ["a", "b", "c"] out := by
  obtain ⟨out, h1, h2⟩ := C81_complete_iff_rows_in_listed_order (localBackend rng) (C39_local_backend_lawful rng) oneShotParams
    (.inr ⟨2, 1, by decide, by decide, rfl, rfl, rfl⟩) [] (localCombine (Combiner.compound ([] : List (Combiner ℚ))).merge)
    (localCombine_lawful _) ["a", "b", "c"] (by decide) [(7, "a", (1 : ℚ)), (8, "a", 1), (8, "c", 5)] rfl
    (fun h => by simp [oneShotParams] at h)
  exact ⟨out, h1, fun h => absurd (h2.mp h) (by decide)⟩

example (rng) : ∃ out, oneShotPartitions (localBackend rng) [] (localCombine (Combiner.compound ([] : List (Combiner ℚ))).merge)
      oneShotParams ["a", "b", "c"] [(7, "a", (1 : ℚ)), (8, "b", 1)] = .ok out ∧ HasExactly ["a", "b", "c"] out := by
  obtain ⟨out, h1, h2⟩ := C81_complete_iff_rows_in_listed_order (localBackend rng) (C39_local_backend_lawful rng) oneShotParams
    (.inr ⟨2, 1, by decide, by decide, rfl, rfl, rfl⟩) [] (localCombine (Combiner.compound ([] : List (Combiner ℚ))).merge)
    (localCombine_lawful _) ["a", "b", "c"] (by decide) [(7, "a", (1 : ℚ)), (8, "b", 1)] rfl
    (fun h => by simp [oneShotParams] at h)
  exact ⟨out, h1, h2.mpr (by decide)⟩

/-- A row in `z` after the first: all other rows and partitions are missing. -/
example (rng) : ∃ out, (∀ post, oneShotPartitions (localBackend rng) []
      (localCombine (Combiner.compound ([] : List (Combiner ℚ))).merge) oneShotParams ["a", "b", "c"]
      ([(7, "a", (1 : ℚ))] ++ (8, "z", 1) :: post) = .ok out) ∧ ∀ k ∈ resultKeys out, k ∈ ["a"] :=
  C81_foreign_row_ends_the_input (localBackend rng) (C39_local_backend_lawful rng) oneShotParams
    (.inr ⟨2, 1, by decide, by decide, rfl, rfl, rfl⟩) [] _ (localCombine_lawful _) ["a", "b", "c"] [(7, "a", (1 : ℚ))]
    (8, "z", 1) (by decide) rfl (fun h => by simp [oneShotParams] at h)

end PDP.Engine
