import Verif.Engine.Lemmas

/-! # One user's entries in the engine -/

set_option linter.unusedSectionVars false
set_option linter.unusedVariables false

namespace PDP.Engine

open PDP

variable {P K V A : Type} [DecidableEq P] [DecidableEq K]

/-- What bounding guarantees for the entries (partition, values of one accumulator) of one user. -/
structure UserEntries (p : Params) (sampling : Bool) (E : List (K × List V)) : Prop where
  nonempty : ∀ e ∈ E, e.2 ≠ []
  partitions : ∀ l0, p.maxPartitions = some l0 → (E.map Prod.fst).dedup.length ≤ l0
  perPartition : ∀ linf, p.maxPerPartition = some linf → sampling = true ∨ p.boundsEnforced = true →
    ∀ k, ((valuesOf k E).map List.length).sum ≤ linf
  total : ∀ m, p.maxContributions = some m → (E.map fun e => e.2.length).sum ≤ m
  once : p.boundsEnforced = false → (E.map Prod.fst).Nodup

/-! ### selecting rows -/

theorem dropPartitions_filter (p : Params) (pub : Option (List K)) (col : List (P × K × V)) :
    ∃ f : P × K × V → Bool, dropPartitions p pub col = col.filter f ∧
      ∀ col' : List (P × K × V), dropPartitions p pub col' = col'.filter f := by
  unfold dropPartitions
  cases pub with
  | none => exact ⟨fun _ => true, by simp, by simp⟩
  | some ps =>
    cases h : p.publicFiltered with
    | true => exact ⟨fun _ => true, by simp, by simp⟩
    | false => exact ⟨fun r => decide (r.2.1 ∈ ps), by simp, by simp⟩

theorem dropPartitions_without (p : Params) (pub : Option (List K)) (u : P) (col : List (P × K × V)) :
    dropPartitions p pub (without u col) = without u (dropPartitions p pub col) := by
  obtain ⟨f, h1, h2⟩ := dropPartitions_filter p pub col
  rw [h2, h1, without, without, List.filter_comm]

theorem dropPartitions_sublist (p : Params) (pub : Option (List K)) (col : List (P × K × V)) :
    (dropPartitions p pub col).Sublist col := by
  obtain ⟨f, h1, -⟩ := dropPartitions_filter p pub col
  rw [h1]; exact List.filter_sublist

theorem cell_sublist {a b : List (P × K × V)} (h : a.Sublist b) (u : P) (k : K) :
    (cell u k a).length ≤ (cell u k b).length := ((h.filter _).map _).length_le

theorem rows_sublist {a b : List (P × K × V)} (h : a.Sublist b) (u : P) :
    (a.filter fun r => r.1 = u).length ≤ (b.filter fun r => r.1 = u).length := (h.filter _).length_le

theorem partitionsOf_sublist {a b : List (P × K × V)} (h : a.Sublist b) (u : P) :
    (partitionsOf u a).length ≤ (partitionsOf u b).length := by
  refine (List.subperm_of_subset (partitionsOf_nodup u a) ?_).length_le
  intro k hk
  unfold partitionsOf at *
  rw [List.mem_dedup] at *
  exact ((h.filter _).map _).subset hk

/-! ### entries of one user behind a bounder -/

/-- The entries of user `u` among kept entries. -/
def entriesOf (u : P) (kept : List ((P × K) × List V)) : List (K × List V) :=
  (kept.filter fun e => e.1.1 = u).map fun e => (e.1.2, e.2)

theorem entriesOf_nodup {u : P} {kept : List ((P × K) × List V)} (h : (kept.map Prod.fst).Nodup) :
    ((entriesOf u kept).map Prod.fst).Nodup := by
  unfold entriesOf
  rw [List.map_map]
  have h1 : ((kept.filter fun e => e.1.1 = u).map Prod.fst).Nodup := h.sublist (List.filter_sublist.map _)
  have h2 : ((kept.filter fun e => e.1.1 = u).map Prod.fst)
      = ((kept.filter fun e => e.1.1 = u).map (Prod.fst ∘ fun e => (e.1.2, e.2))).map fun k => (u, k) := by
    rw [List.map_map]
    apply List.map_congr_left
    intro e he
    simp only [List.mem_filter, decide_eq_true_eq] at he
    simp [Function.comp_def, ← he.2]
  rw [h2] at h1
  exact h1.of_map _

theorem mem_entriesOf {u : P} {kept : List ((P × K) × List V)} {e : K × List V} :
    e ∈ entriesOf u kept ↔ ((u, e.1), e.2) ∈ kept := by
  unfold entriesOf
  simp only [List.mem_map, List.mem_filter, decide_eq_true_eq]
  constructor
  · rintro ⟨⟨⟨a, b⟩, c⟩, ⟨h, rfl⟩, rfl⟩; exact h
  · intro h; exact ⟨_, ⟨h, rfl⟩, rfl⟩

theorem rowsBehind_user (u : P) (kept : List ((P × K) × List V)) :
    ((rowsBehind kept).filter fun r => r.1 = u).length = ((entriesOf u kept).map fun e => e.2.length).sum := by
  unfold entriesOf rowsBehind
  induction kept with
  | nil => rfl
  | cons e kept ih =>
    rw [List.flatMap_cons, List.filter_append, List.length_append, ih, List.filter_cons]
    by_cases h : e.1.1 = u
    · have : List.filter (fun r : P × K × V => decide (r.1 = u)) (e.2.map fun v => (e.1.1, e.1.2, v))
          = e.2.map fun v => (e.1.1, e.1.2, v) := by
        rw [List.filter_eq_self]; simp [h]
      rw [this]; simp [h]
    · have : List.filter (fun r : P × K × V => decide (r.1 = u)) (e.2.map fun v => (e.1.1, e.1.2, v)) = [] := by
        rw [List.filter_eq_nil_iff]; simp [h]
      rw [this]; simp [h]

/-- With one entry per key, the values of a key are one list or none. -/
theorem valuesOf_of_nodup {X : Type} {E : List (K × X)} (h : (E.map Prod.fst).Nodup) (k : K) :
    valuesOf k E = [] ∨ ∃ x, valuesOf k E = [x] ∧ (k, x) ∈ E := by
  induction E with
  | nil => left; rfl
  | cons e E ih =>
    rw [List.map_cons, List.nodup_cons] at h
    rw [valuesOf_cons]
    by_cases hk : e.1 = k
    · right
      have : valuesOf k E = [] := by
        by_contra hne
        exact h.1 (hk ▸ valuesOf_ne_nil.mp hne)
      refine ⟨e.2, by simp [hk, this], ?_⟩
      subst hk; simp
    · rw [if_neg hk]
      rcases ih h.2 with h1 | ⟨x, h1, h2⟩
      · exact Or.inl h1
      · exact Or.inr ⟨x, h1, by simp [h2]⟩

theorem perPartition_of_nodup {E : List (K × List V)} (h : (E.map Prod.fst).Nodup) {n : ℕ}
    (hn : ∀ e ∈ E, e.2.length ≤ n) (k : K) : ((valuesOf k E).map List.length).sum ≤ n := by
  rcases valuesOf_of_nodup h k with h1 | ⟨x, h1, h2⟩
  · simp [h1]
  · simpa [h1] using hn _ h2

theorem dedup_length_of_nodup {X : Type} {E : List (K × X)} (h : (E.map Prod.fst).Nodup) :
    (E.map Prod.fst).dedup.length = E.length := by rw [h.dedup, List.length_map]

/-- What the engine's bounder keeps. -/
theorem run_kept (B : Backend) (hB : B.Lawful) (p : Params) (hp : p.BoundsValid) (he : p.boundsEnforced = false)
    (sampling : Bool) (create : List V → A) (col : List (P × K × V)) :
    ∃ b, selectBounder p sampling = .ok b ∧ ∃ kept : List ((P × K) × List V),
      b.run B create col = kept.map (fun e => (e.1, create e.2)) ∧ KeptFrom col kept ∧
      ∀ u, CallerKeepsBounds p u col → UserEntries p sampling (entriesOf u kept) := by
  have hne : ∀ {kept : List ((P × K) × List V)}, KeptFrom col kept → ∀ u, ∀ e ∈ entriesOf u kept, e.2 ≠ [] :=
    fun hk u e he => hk.nonempty _ (mem_entriesOf.mp he)
  have hlen : ∀ (kept : List ((P × K) × List V)) u,
      (entriesOf u kept).length = (kept.filter fun e => e.1.1 = u).length := by
    intro kept u; simp [entriesOf]
  rcases hp with ⟨m, hm, h1, h2, h3⟩ | ⟨l0, linf, h0, hi, h1, h2, h3⟩
  · obtain ⟨kept, k1, k2, k3⟩ := perId_kept B hB m hm create col
    have hsel : selectBounder p sampling = .ok (.perId m) := by
      have : m ≠ 0 := by omega
      simp [selectBounder, h1, natArg, this, bind, Except.bind, pure, Except.pure]
    refine ⟨_, hsel, kept, k1, k2, fun u hu => ⟨hne k2 u, by simp [h2], by simp [h3], ?_, fun _ => entriesOf_nodup k2.once⟩⟩
    intro m' hm'
    rw [h1, Option.some.injEq] at hm'; subst hm'
    rw [← rowsBehind_user, k3]; exact Nat.min_le_left _ _
  · have hpart : ∀ {kept : List ((P × K) × List V)}, KeptFrom col kept → ∀ {n u},
        (kept.filter fun e => e.1.1 = u).length ≤ n → ((entriesOf u kept).map Prod.fst).dedup.length ≤ n := by
      intro kept hk n u h
      rw [dedup_length_of_nodup (entriesOf_nodup hk.once), hlen]; exact h
    cases hc : p.performCross with
    | true =>
      cases sampling with
      | true =>
        obtain ⟨kept, k1, k2, k3, k4⟩ := crossAndPer_kept B hB l0 linf h0 hi create col
        have hsel : selectBounder p true = .ok (.crossAndPer l0 linf) := by
          simp [selectBounder, h1, h2, h3, hc, natArg, bind, Except.bind, pure, Except.pure]
        refine ⟨_, hsel, kept, k1, k2, fun u hu => ⟨hne k2 u, ?_, ?_, by simp [h1], fun _ => entriesOf_nodup k2.once⟩⟩
        · intro l hl
          rw [h2, Option.some.injEq] at hl; subst hl
          exact hpart k2 (by rw [k4]; exact Nat.min_le_left _ _)
        · intro l hl _ k
          rw [h3, Option.some.injEq] at hl; subst hl
          refine perPartition_of_nodup (entriesOf_nodup k2.once) (fun e he => ?_) k
          rw [k3 _ (mem_entriesOf.mp he)]; exact Nat.min_le_left _ _
      | false =>
        obtain ⟨kept, k1, k2, k3, k4⟩ := cross_kept B hB l0 h0 create col
        have hsel : selectBounder p false = .ok (.cross l0) := by
          simp [selectBounder, h1, h2, hc, natArg, bind, Except.bind, pure, Except.pure]
        refine ⟨_, hsel, kept, k1, k2, fun u hu => ⟨hne k2 u, ?_, by simp [he], by simp [h1], fun _ => entriesOf_nodup k2.once⟩⟩
        intro l hl
        rw [h2, Option.some.injEq] at hl; subst hl
        exact hpart k2 (by rw [k4]; exact Nat.min_le_left _ _)
    | false =>
      cases sampling with
      | true =>
        obtain ⟨kept, k1, k2, k3, k4⟩ := linf_kept B hB linf hi create col
        have hsel : selectBounder p true = .ok (.linf linf) := by
          simp [selectBounder, h1, h3, hc, natArg, bind, Except.bind, pure, Except.pure]
        refine ⟨_, hsel, kept, k1, k2, fun u hu => ⟨hne k2 u, ?_, ?_, by simp [h1], fun _ => entriesOf_nodup k2.once⟩⟩
        · intro l hl
          exact hpart k2 (by rw [k4]; exact hu.2 hc l hl)
        · intro l hl _ k
          rw [h3, Option.some.injEq] at hl; subst hl
          refine perPartition_of_nodup (entriesOf_nodup k2.once) (fun e he => ?_) k
          rw [k3 _ (mem_entriesOf.mp he)]; exact Nat.min_le_left _ _
      | false =>
        obtain ⟨kept, k1, k2, k3⟩ := noOp_kept B hB create col
        have hsel : selectBounder p false = .ok .noOp := by
          simp [selectBounder, h1, hc, pure, Except.pure]
        refine ⟨_, hsel, kept, k1, k2, fun u hu => ⟨hne k2 u, ?_, by simp [he], by simp [h1], fun _ => entriesOf_nodup k2.once⟩⟩
        intro l hl
        have h5 := hu.2 hc l hl
        refine le_trans ?_ h5
        refine (List.subperm_of_subset (List.nodup_dedup _) ?_).length_le
        intro k hk
        rw [List.mem_dedup, List.mem_map] at hk
        obtain ⟨e, he, rfl⟩ := hk
        have h6 := mem_entriesOf.mp he
        have h7 := k2.fromInput _ h6
        apply mem_of_cell
        intro h8
        rw [h8] at h7
        exact k2.nonempty _ h6 (List.subperm_nil.mp h7)

theorem run_without (B : Backend) (hK : B.KeyLocal) (b : Bounder) (create : List V → A) (u : P)
    (col : List (P × K × V)) :
    b.run B create (without u col) = (b.run B create col).filter fun e => e.1.1 ≠ u := by
  cases b with
  | perId m => exact C13_non_interference_per_id B hK m create col u
  | crossAndPer l0 linf => exact C13_non_interference_cross_and_per B hK l0 linf create col u
  | cross l0 => exact C13_non_interference_cross B hK l0 create col u
  | linf l => exact C13_non_interference_linf B hK l create col u
  | noOp => exact C13_non_interference_no_bounding B hK create col u

theorem CallerKeepsBounds.sublist {p : Params} {u : P} {a b : List (P × K × V)} (h : a.Sublist b)
    (hb : CallerKeepsBounds p u b) : CallerKeepsBounds p u a :=
  ⟨fun he => ⟨fun m hm => (rows_sublist h u).trans ((hb.1 he).1 m hm),
    fun l hl => (partitionsOf_sublist h u).trans ((hb.1 he).2.1 l hl),
    fun l hl k => (cell_sublist h u k).trans ((hb.1 he).2.2 l hl k)⟩,
   fun hc l hl => (partitionsOf_sublist h u).trans (hb.2 hc l hl)⟩

theorem cell_singletons (u : P) (k : K) (col : List (P × K × V)) :
    ((valuesOf k ((col.filter fun r => r.1 = u).map fun r => (r.2.1, [r.2.2]))).map List.length).sum
      = (cell u k col).length := by
  induction col with
  | nil => rfl
  | cons r col ih =>
    unfold cell at *
    by_cases h : r.1 = u <;> by_cases h2 : r.2.1 = k <;>
      simp_all [valuesOf_cons, Nat.add_comm]

/-- The change caused by `u` in the accumulators is given by bounded entries of `u`. -/
theorem accumulators_change (B : Backend) (hB : B.Lawful) (hK : B.KeyLocal) (p : Params) (hp : p.BoundsValid)
    (sampling : Bool) (create : List V → A) (pub : Option (List K)) (col : List (P × K × V)) (u : P)
    (hu : CallerKeepsBounds p u col) :
    ∃ a a' E, accumulators B p sampling create pub col = .ok a ∧
      accumulators B p sampling create pub (without u col) = .ok a' ∧
      (∀ (μ : A → ℚ) k, partitionTotal μ a k - partitionTotal μ a' k
        = partitionTotal (fun vs => μ (create vs)) E k) ∧
      UserEntries p sampling E := by
  have hu' := hu.sublist (dropPartitions_sublist p pub col)
  have hpub : ∀ d d' : List (K × A), ∀ (μ : A → ℚ) k,
      partitionTotal μ (addEmptyPublic create pub d) k - partitionTotal μ (addEmptyPublic create pub d') k
        = partitionTotal μ d k - partitionTotal μ d' k := by
    intro d d' μ k
    unfold addEmptyPublic
    cases pub with
    | none => rfl
    | some ps => simp only [partitionTotal_append]; ring
  cases he : p.boundsEnforced with
  | true =>
    let L : List (P × K × V) → List ((P × K) × A) := fun c => c.map fun r => ((r.1, r.2.1), create [r.2.2])
    have h1 : ∀ c, accumulators B p sampling create pub c
        = .ok (addEmptyPublic create pub ((L (dropPartitions p pub c)).map fun e => (e.1.2, e.2))) := by
      intro c
      simp [accumulators, dataAccumulators, he, L, bind, Except.bind, pure, Except.pure, Function.comp_def]
    refine ⟨_, _, ((dropPartitions p pub col).filter fun r => r.1 = u).map fun r => (r.2.1, [r.2.2]),
      h1 _, h1 _, ?_, ?_⟩
    · intro μ k
      rw [hpub, dropPartitions_without]
      have h2 : L (without u (dropPartitions p pub col))
          = (L (dropPartitions p pub col)).filter fun e => e.1.1 ≠ u := by
        simp only [L, without, List.filter_map]; rfl
      rw [h2, total_split, ← total_map]
      congr 1
      simp only [L, List.filter_map, List.map_map]; rfl
    · obtain ⟨hm, h0, hi⟩ := hu'.1 he
      refine ⟨?_, ?_, ?_, ?_, by simp [he]⟩
      · intro e he2
        obtain ⟨r, -, rfl⟩ := List.mem_map.mp he2
        simp
      · intro l hl
        rw [List.map_map]
        exact h0 l hl
      · intro l hl _ k
        rw [cell_singletons]; exact hi l hl k
      · intro m hmm
        simpa [Function.comp_def] using hm m hmm
  | false =>
    obtain ⟨b, hb, kept, k1, k2, k3⟩ := run_kept B hB p hp he sampling create (dropPartitions p pub col)
    have h1 : ∀ c : List (P × K × V), accumulators B p sampling create pub c
        = .ok (addEmptyPublic create pub ((b.run B create (dropPartitions p pub c)).map fun e => (e.1.2, e.2))) := by
      intro c
      simp [accumulators, dataAccumulators, he, hb, bind, Except.bind, pure, Except.pure]
    refine ⟨_, _, entriesOf u kept, h1 _, h1 _, ?_, k3 u hu'⟩
    intro μ k
    rw [hpub, dropPartitions_without, run_without B hK, total_split, ← total_map, k1]
    congr 1
    simp only [entriesOf, List.filter_map, List.map_map]; rfl

end PDP.Engine
