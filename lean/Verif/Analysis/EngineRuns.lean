import Verif.Analysis.Engine
import Verif.Analysis.Sampling
import Mathlib.Algebra.BigOperators.Group.Finset.Basic

/-!
# Executions of the aggregation engine, seen partition by partition

The values which `DPEngine.aggregate` computes before noise, in terms of the partitions kept for every user.
-/

set_option linter.unusedVariables false
set_option linter.unusedSectionVars false

namespace PDP.Analysis

open PDP
open PDP.Engine (Combiner MergeTree IsCombine LawfulCombine dropPartitions addEmptyPublic usersIn valuesIn relevant selectBounder
  partitionAccumulators partitionTotal accumulators dataAccumulators)

variable {P K : Type} [DecidableEq P] [DecidableEq K]

/-! ### Specification -/

/-- The parameters ask for at most `l0` partitions per user (unless `perform_cross_partition_contribution_bounding` is false) and
`linf` rows per user and partition, enforced by the engine. -/
structure Bounds (p : Engine.Params) (l0 linf : ℕ) : Prop where
  noTotal : p.maxContributions = none
  partitions : p.maxPartitions = some l0
  perPartition : p.maxPerPartition = some linf
  l0pos : 1 ≤ l0
  linfpos : 1 ≤ linf
  notEnforced : p.boundsEnforced = false

/-- Partitions in which the engine keeps rows of user `u`. -/
def keptPartitions (B : Backend) (p : Engine.Params) (cs : List (Combiner ℚ)) (pub : Option (List K)) (rows : List (P × K × ℚ))
    (u : P) : Finset K :=
  match selectBounder p (Combiner.compound cs).sampling with
  | .error _ => ∅
  | .ok b => (((b.run B (Combiner.compound cs).create (dropPartitions p pub rows)).filter fun e => e.1.1 = u).map
      fun e => e.1.2).toFinset

/-- The number computed by combiner `i`, before noise, for partition `k` of the output (0 if it is not in the output). -/
def exactValue {cs : List (Combiner ℚ)} (c : Combiner ℚ) (i : Fin cs.length) (hi : cs[i] = c) (μ : c.Acc → ℚ)
    (out : List (K × (Combiner.compound cs).Acc)) (k : K) : ℚ :=
  partitionTotal (fun a => μ (Combiner.readAs c i hi a)) out k

/-! ### Lemmas -/

theorem bounds_bounder {p : Engine.Params} {l0 linf : ℕ} (h : Bounds p l0 linf) (sampling : Bool) :
    selectBounder p sampling = .ok (if p.performCross then if sampling then .crossAndPer l0 linf else .cross l0 else
      if sampling then .linf linf else .noOp) := by
  cases sampling <;> cases hc : p.performCross <;>
    simp [selectBounder, h.noTotal, hc, h.partitions, h.perPartition, Engine.natArg, bind, Except.bind, pure, Except.pure]

/-- The number of partitions which a user keeps at most. -/
def keptLimit {V : Type} (p : Engine.Params) (l0 : ℕ) (rows : List (P × K × V)) : ℕ := if p.performCross then l0 else rows.length

theorem partitionsOf_length {V : Type} (u : P) (rows : List (P × K × V)) : (partitionsOf u rows).length ≤ rows.length := by
  unfold partitionsOf
  exact (List.dedup_sublist _).length_le.trans (by rw [List.length_map]; exact List.length_filter_le _ _)

/-- The entries which the bounder keeps. -/
structure KeptEntries {V : Type} (l0 linf : ℕ) (sampling : Bool) (rows : List (P × K × V)) (kept : List ((P × K) × List V)) :
    Prop where
  from_ : KeptFrom rows kept
  sampled : sampling = true → ∀ e ∈ kept, e.2.length = min linf (cell e.1.1 e.1.2 rows).length
  whole : sampling = false → ∀ e ∈ kept, e.2.Perm (cell e.1.1 e.1.2 rows)
  partitions : ∀ u, (kept.filter fun e => e.1.1 = u).length = min l0 (partitionsOf u rows).length

theorem noOp_all {V A : Type} (B : Backend) (hB : B.Lawful) (create : List V → A) (rows : List (P × K × V)) :
    ∃ kept : List ((P × K) × List V), boundNoOp B create rows = kept.map (fun e => (e.1, create e.2)) ∧ KeptFrom rows kept ∧
      (∀ e ∈ kept, e.2.Perm (cell e.1.1 e.1.2 rows)) ∧
      ∀ u, (kept.filter fun e => e.1.1 = u).length = (partitionsOf u rows).length := by
  have hg := hB.group (byPair rows)
  have hval : ∀ e ∈ B.groupByKey (byPair rows), e.2.Perm (cell e.1.1 e.1.2 rows) := by
    intro e he
    rw [← valuesOf_byPair]; exact hg.values e he
  refine ⟨_, rfl, keptFrom_of hg.nodup ?_ ?_, hval, fun u => pairs_count hg.nodup hg.keys u⟩
  · intro e he h0
    have h1 := hg.values e he
    rw [h0] at h1
    exact valuesOf_ne_nil.mpr ((hg.keys e.1).mp (List.mem_map.mpr ⟨e, he, rfl⟩)) (List.nil_perm.1 h1)
  · exact fun e he => (hval e he).subperm

theorem bounder_kept {V A : Type} (B : Backend) (hB : B.Lawful) {p : Engine.Params} {l0 linf : ℕ} (h : Bounds p l0 linf)
    (sampling : Bool) (create : List V → A) (rows : List (P × K × V)) :
    ∃ b, selectBounder p sampling = .ok b ∧ ∃ kept, KeptEntries (keptLimit p l0 rows) linf sampling rows kept ∧
      b.run B create rows = kept.map fun e => (e.1, create e.2) := by
  refine ⟨_, bounds_bounder h sampling, ?_⟩
  have hall : ∀ u, (partitionsOf u rows).length = min rows.length (partitionsOf u rows).length := fun u =>
    (min_eq_right (partitionsOf_length u rows)).symm
  unfold keptLimit
  cases p.performCross with
  | true =>
    cases sampling with
    | true =>
      obtain ⟨kept, h1, h2, h3, h4⟩ := crossAndPer_kept B hB l0 linf h.l0pos h.linfpos create rows
      exact ⟨kept, ⟨h2, fun _ => h3, fun hh => absurd hh (by simp), h4⟩, h1⟩
    | false =>
      obtain ⟨kept, h1, h2, h3, h4⟩ := cross_kept B hB l0 h.l0pos create rows
      exact ⟨kept, ⟨h2, fun hh => absurd hh (by simp), fun _ => h3, h4⟩, h1⟩
  | false =>
    cases sampling with
    | true =>
      obtain ⟨kept, h1, h2, h3, h4⟩ := linf_kept B hB linf h.linfpos create rows
      exact ⟨kept, ⟨h2, fun _ => h3, fun hh => absurd hh (by simp), fun u => (h4 u).trans (hall u)⟩, h1⟩
    | false =>
      obtain ⟨kept, h1, h2, h3, h4⟩ := noOp_all B hB create rows
      exact ⟨kept, ⟨h2, fun hh => absurd hh (by simp), fun _ => h3, fun u => (h4 u).trans (hall u)⟩, h1⟩

theorem entry_user {V : Type} {rows : List (P × K × V)} {kept : List ((P × K) × List V)} (h : KeptFrom rows kept) {e}
    (he : e ∈ kept) : e.1.2 ∈ partitionsOf e.1.1 rows := by
  apply mem_of_cell
  intro h0
  have := h.fromInput e he
  rw [h0] at this
  exact h.nonempty e he (List.subperm_nil.mp this)

theorem mem_usersIn {V : Type} {rows : List (P × K × V)} {u : P} {k : K} : u ∈ usersIn k rows ↔ k ∈ partitionsOf u rows := by
  simp only [usersIn, partitionsOf, List.mem_dedup, List.mem_map, List.mem_filter, decide_eq_true_eq]
  constructor
  · rintro ⟨r, ⟨h1, h2⟩, h3⟩; exact ⟨r, ⟨h1, h3⟩, h2⟩
  · rintro ⟨r, ⟨h1, h2⟩, h3⟩; exact ⟨r, ⟨h1, h3⟩, h2⟩

/-- Kept partitions of a list of entries. -/
def keptOf {V : Type} (kept : List ((P × K) × List V)) (u : P) : Finset K :=
  ((kept.filter fun e => e.1.1 = u).map fun e => e.1.2).toFinset

theorem mem_keptOf {V : Type} {kept : List ((P × K) × List V)} {u : P} {k : K} :
    k ∈ keptOf kept u ↔ (u, k) ∈ kept.map Prod.fst := by
  simp only [keptOf, List.mem_toFinset, List.mem_map, List.mem_filter, decide_eq_true_eq]
  constructor
  · rintro ⟨e, ⟨h1, rfl⟩, rfl⟩; exact ⟨e, h1, rfl⟩
  · rintro ⟨e, h1, h2⟩; exact ⟨e, ⟨h1, by rw [h2]⟩, by rw [h2]⟩

theorem keptOf_valid {V : Type} {l0 linf : ℕ} {sampling : Bool} {rows : List (P × K × V)} {kept : List ((P × K) × List V)}
    (h : KeptEntries l0 linf sampling rows kept) (u : P) :
    keptOf kept u ⊆ (partitionsOf u rows).toFinset ∧
      (keptOf kept u).card = min l0 ((partitionsOf u rows).toFinset).card := by
  constructor
  · intro k hk
    obtain ⟨e, he, hek⟩ := List.mem_map.mp (mem_keptOf.mp hk)
    have := entry_user h.from_ he
    rw [hek] at this
    exact List.mem_toFinset.mpr this
  · rw [List.toFinset_card_of_nodup (partitionsOf_nodup u rows), ← h.partitions u]
    unfold keptOf
    rw [List.toFinset_card_of_nodup, List.length_map]
    have hn := h.from_.once
    refine List.Nodup.map_on ?_ (hn.of_map.filter _)
    intro x hx y hy hxy
    obtain ⟨hx1, hx2⟩ := List.mem_filter.mp hx
    obtain ⟨hy1, hy2⟩ := List.mem_filter.mp hy
    simp only [decide_eq_true_eq] at hx2 hy2
    exact List.inj_on_of_nodup_map hn hx1 hy1 (Prod.ext (hx2.trans hy2.symm) hxy)

/-- A sum over the entries of partition `k` is a sum over its users who keep it. -/
theorem sum_entries {V M : Type} [AddCommMonoid M] {rows : List (P × K × V)} {kept : List ((P × K) × List V)}
    (h : KeptFrom rows kept) (f : List V → M) (val : P → K → M) (hv : ∀ e ∈ kept, f e.2 = val e.1.1 e.1.2) (k : K) :
    ((kept.filter fun x => x.1.2 = k).map fun x => f x.2).sum
      = ∑ u ∈ (usersIn k rows).toFinset, if k ∈ keptOf kept u then val u k else 0 := by
  set L := (kept.filter fun x => x.1.2 = k).map fun x => x.1.1 with hL
  have hnd : L.Nodup := by
    have hn := h.once
    refine List.Nodup.map_on ?_ (hn.of_map.filter _)
    intro x hx y hy hxy
    obtain ⟨hx1, hx2⟩ := List.mem_filter.mp hx
    obtain ⟨hy1, hy2⟩ := List.mem_filter.mp hy
    simp only [decide_eq_true_eq] at hx2 hy2
    exact List.inj_on_of_nodup_map hn hx1 hy1 (Prod.ext hxy (hx2.trans hy2.symm))
  have h1 : ((kept.filter fun x => x.1.2 = k).map fun x => f x.2) = L.map fun u => val u k := by
    rw [hL, List.map_map]
    apply List.map_congr_left
    intro e he
    obtain ⟨he1, he2⟩ := List.mem_filter.mp he
    simp only [decide_eq_true_eq] at he2
    rw [hv e he1, he2]
    rfl
  rw [h1, ← Finset.sum_filter, ← List.sum_toFinset _ hnd]
  apply Finset.sum_congr _ fun _ _ => rfl
  ext u
  rw [List.mem_toFinset, Finset.mem_filter, List.mem_toFinset, mem_keptOf]
  constructor
  · intro hu
    obtain ⟨e, he, rfl⟩ := List.mem_map.mp hu
    obtain ⟨he1, he2⟩ := List.mem_filter.mp he
    simp only [decide_eq_true_eq] at he2
    refine ⟨mem_usersIn.mpr ?_, List.mem_map.mpr ⟨e, he1, by rw [← he2]⟩⟩
    rw [← he2]
    exact entry_user h he1
  · rintro ⟨-, hu⟩
    obtain ⟨e, he, heq⟩ := List.mem_map.mp hu
    exact List.mem_map.mpr ⟨e, List.mem_filter.mpr ⟨he, by simp [heq]⟩, by rw [heq]⟩

/-- Merging keeps the totals of an additive reading. -/
theorem total_combined {A : Type} {merge : A → A → A} {a out : List (K × A)} (h : IsCombine merge a out) (f : A → ℚ)
    (hf : ∀ x y, f (merge x y) = f x + f y) (k : K) : partitionTotal f out k = partitionTotal f a k := by
  rcases Engine.valuesOf_of_nodup h.nodup k with h1 | ⟨x, h1, hx⟩
  · have h2 : valuesOf k a = [] := by
      by_contra hne
      exact valuesOf_ne_nil.mpr ((h.keys k).mpr (valuesOf_ne_nil.mp hne)) h1
    rw [partitionTotal, partitionTotal, h1, h2]
  · obtain ⟨t, ht, hv⟩ := h.values (k, x) hx
    rw [partitionTotal, h1, partitionTotal, ← (ht.map f).sum_eq, ← Engine.eval_hom merge f hf, ← hv]
    simp

theorem valuesOf_entries' {V A : Type} (kept : List ((P × K) × List V)) (create : List V → A) (k : K) :
    valuesOf k (kept.map fun e => (e.1.2, create e.2)) = (kept.filter fun x => x.1.2 = k).map fun x => create x.2 := by
  unfold valuesOf
  rw [List.filter_map, List.map_map]
  rfl

/-- What the engine computes before noise and selection. -/
theorem engine_value (B : Backend) (hB : B.Lawful) {p : Engine.Params} {l0 linf : ℕ} (hp : Bounds p l0 linf)
    (cs : List (Combiner ℚ)) (comb : List (K × (Combiner.compound cs).Acc) → List (K × (Combiner.compound cs).Acc))
    (hcomb : LawfulCombine (Combiner.compound cs).merge comb) (pub : Option (List K)) (rows : List (P × K × ℚ))
    (hf : p.publicFiltered = true → ∀ ps, pub = some ps → ∀ r ∈ rows, r.2.1 ∈ ps) :
    ∃ kept, KeptEntries (keptLimit p l0 (relevant pub rows)) linf (Combiner.compound cs).sampling (relevant pub rows) kept ∧
      (∀ u, keptPartitions B p cs pub rows u = keptOf kept u) ∧
      accumulators B p (Combiner.compound cs).sampling (Combiner.compound cs).create pub rows
        = .ok (addEmptyPublic (Combiner.compound cs).create pub
          (kept.map fun e => (e.1.2, (Combiner.compound cs).create e.2))) ∧
      ∃ out, partitionAccumulators B cs comb (fun _ _ => true) p pub rows = .ok out ∧
        ∀ (c : Combiner ℚ) (i : Fin cs.length) (hi : cs[i] = c) (μ : c.Acc → ℚ), (∀ a b, μ (c.merge a b) = μ a + μ b) →
          (pub ≠ none → μ (c.create []) = 0) → ∀ val : P → K → ℚ, (∀ e ∈ kept, μ (c.create e.2) = val e.1.1 e.1.2) → ∀ k,
          exactValue c i hi μ out k
            = ∑ u ∈ (usersIn k (relevant pub rows)).toFinset, if k ∈ keptOf kept u then val u k else 0 := by
  obtain ⟨b, hb, kept, h1, h2⟩ := bounder_kept B hB hp (Combiner.compound cs).sampling (Combiner.compound cs).create (relevant pub rows)
  have hdrop := Engine.dropPartitions_eq_relevant p pub rows hf
  have hacc : accumulators B p (Combiner.compound cs).sampling (Combiner.compound cs).create pub rows
        = .ok (addEmptyPublic (Combiner.compound cs).create pub
          (kept.map fun e => (e.1.2, (Combiner.compound cs).create e.2))) := by
    simp [accumulators, dataAccumulators, hp.notEnforced, hdrop, hb, h2, bind, Except.bind, pure, Except.pure, Function.comp_def]
  refine ⟨kept, h1, fun u => ?_, hacc, ?_⟩
  · unfold keptPartitions
    rw [hb]
    dsimp only
    rw [hdrop, h2, List.filter_map, List.map_map]
    rfl
  · set accs := addEmptyPublic (Combiner.compound cs).create pub
          (kept.map fun e => (e.1.2, (Combiner.compound cs).create e.2)) with haccs
    have hC := hcomb accs
    refine ⟨comb accs, ?_, ?_⟩
    · unfold partitionAccumulators
      rw [hacc]
      show (if Engine.selectsPrivately p pub = true then _ else _) = _
      split
      · simp [Engine.maxRowsPerId, hp.notEnforced, Engine.selectPrivate, bind, Except.bind, pure, Except.pure]
      · rfl
    · intro c i hi μ hμ hμ0 val hval k
      have hadd : ∀ x y, μ (Combiner.readAs c i hi ((Combiner.compound cs).merge x y))
          = μ (Combiner.readAs c i hi x) + μ (Combiner.readAs c i hi y) := by
        intro x y
        have := Engine.read_eval cs c i hi μ hμ (.node (.leaf x) (.leaf y))
        simpa [MergeTree.eval, MergeTree.leaves] using this
      unfold exactValue
      rw [total_combined hC _ hadd, ← sum_entries h1.from_ (fun vs => μ (c.create vs)) val hval k, haccs]
      have hd : partitionTotal (fun a => μ (Combiner.readAs c i hi a)) (kept.map fun e => (e.1.2, (Combiner.compound cs).create e.2)) k
          = ((kept.filter fun x => x.1.2 = k).map fun x => μ (c.create x.2)).sum := by
        unfold partitionTotal
        rw [valuesOf_entries', List.map_map]
        congr 1
        apply List.map_congr_left
        intro e _
        show μ (Combiner.readAs c i hi ((Combiner.compound cs).create e.2)) = _
        rw [Engine.readAs_create]
      unfold addEmptyPublic
      cases pub with
      | none => exact hd
      | some ps =>
        dsimp only
        rw [Engine.partitionTotal_append, hd]
        have : partitionTotal (fun a => μ (Combiner.readAs c i hi a)) (ps.map fun k => (k, (Combiner.compound cs).create [])) k = 0 := by
          unfold partitionTotal
          apply List.sum_eq_zero
          intro x hx
          obtain ⟨a, ha, rfl⟩ := List.mem_map.mp hx
          obtain ⟨k', -, hk'⟩ := List.mem_map.mp (mem_valuesOf.mp ha)
          have : a = (Combiner.compound cs).create [] := (Prod.ext_iff.mp hk').2.symm
          rw [this, Engine.readAs_create, hμ0 (by simp)]
        rw [this, add_zero]

end PDP.Analysis
