import Verif.Analysis.EngineRuns

/-!
# Property C64: the utility analysis predicts the aggregation engine

The metrics of `UtilityAnalysisEngine.analyze` against the values which `DPEngine.aggregate` computes on the same rows.
-/

set_option linter.unusedVariables false
set_option linter.unusedSectionVars false

namespace PDP.Analysis

open PDP
open PDP.Engine (Combiner MergeTree IsCombine LawfulCombine dropPartitions addEmptyPublic usersIn valuesIn relevant selectBounder
  partitionAccumulators partitionTotal accumulators dataAccumulators)

variable {Ω P K : Type} [Fintype Ω] [DecidableEq P] [DecidableEq K]

/-! ### Specification -/

/-- The number in a column of a value (the value itself if there are no columns). -/
def Val.at (column : Option ℕ) : Val → ℚ
  | .scalar x => if column = none then x else 0
  | .cols xs => match column with | none => 0 | some i => xs.getD i 0

/-- The rows with one column as the value, as they are given to `DPEngine.aggregate`. -/
def project (column : Option ℕ) (rows : List (P × K × Val)) : List (P × K × ℚ) :=
  rows.map fun r => (r.1, r.2.1, r.2.2.at column)

/-- Random executions of the engine: every backend keeps its contract, and if the engine limits the partitions per user, every
user independently keeps a uniformly random choice of its partitions. -/
structure Executions (w : Ω → ℝ) (p : Engine.Params) (l0 : ℕ) (cs : List (Combiner ℚ)) (B : Ω → Backend)
    (comb : Ω → List (K × (Combiner.compound cs).Acc) → List (K × (Combiner.compound cs).Acc)) (pub : Option (List K))
    (rows : List (P × K × ℚ)) : Prop where
  isProbability : IsProbability w
  backend : ∀ ω, (B ω).Lawful
  combine : ∀ ω, LawfulCombine (Combiner.compound cs).merge (comb ω)
  uniform : p.performCross = true → UniformChoices w ((relevant pub rows).map fun r => r.1).toFinset
    (fun u => (partitionsOf u (relevant pub rows)).toFinset) l0 fun ω => keptPartitions (B ω) p cs pub rows

/-- The errors of the analysis explain the expectation and the variance of the computed value. -/
structure Predicts (w : Ω → ℝ) (a : SumAcc) (X : Ω → ℚ) : Prop where
  mean : mean w (fun ω => (X ω : ℝ)) = a.sum + a.clipMin + a.clipMax + a.expL0
  variance : variance w (fun ω => (X ω : ℝ)) = a.varL0

/-! ### Lemmas -/

theorem relevant_project (column : Option ℕ) (pub : Option (List K)) (rows : List (P × K × Val)) :
    relevant pub (project column rows) = project column (relevant pub rows) := by
  unfold relevant project
  cases pub with
  | none => rfl
  | some ps => dsimp only; rw [List.filter_map]; rfl

theorem cell_project (column : Option ℕ) (rows : List (P × K × Val)) (u : P) (k : K) :
    cell u k (project column rows) = (cell u k rows).map (Val.at column) := by
  unfold cell project
  rw [List.filter_map, List.map_map, List.map_map]
  rfl

theorem partitionsOf_project (column : Option ℕ) (rows : List (P × K × Val)) (u : P) :
    partitionsOf u (project column rows) = partitionsOf u rows := by
  unfold partitionsOf project
  rw [List.filter_map, List.map_map]
  rfl

theorem usersIn_project (column : Option ℕ) (rows : List (P × K × Val)) (k : K) :
    usersIn k (project column rows) = usersIn k rows := by
  unfold usersIn project
  rw [List.filter_map, List.map_map]
  rfl

theorem value_sum {column : Option ℕ} {lo hi : ℚ} {l0 : ℕ} {vs : List Val} (hne : vs ≠ []) (hs : SameShape vs)
    (hf : ∀ v ∈ vs, (Comb.sum column lo hi l0).FitsValue v) (n m : ℕ) :
    Data.value column ⟨n, sumValues vs, m⟩ = (vs.map (Val.at column)).sum := by
  cases column with
  | none =>
    rw [show sumValues vs = _ from sumValues_scalar hf]
    show (vs.map Val.num).sum = _
    refine congrArg List.sum (List.map_congr_left fun v hv => ?_)
    obtain ⟨x, rfl⟩ := hf v hv
    rfl
  | some i =>
    obtain ⟨v, hv⟩ := List.exists_mem_of_ne_nil _ hne
    obtain ⟨xs, rfl, hi⟩ := hf v hv
    rcases hs with hs | ⟨n', hs⟩
    · obtain ⟨x, hx⟩ := hs _ hv; simp at hx
    · obtain ⟨ys, hy, hl⟩ := hs _ hv
      obtain rfl : xs = ys := by simpa using hy
      rw [sumValues_cols hne hs]
      show List.getD _ i 0 = _
      rw [List.getD_eq_getElem?_getD, List.getElem?_map, List.getElem?_range (by omega)]
      show (vs.map fun u => u.columns.getD i 0).sum = _
      refine congrArg List.sum (List.map_congr_left fun u hu => ?_)
      obtain ⟨zs, rfl, -⟩ := hf u hu
      rfl

theorem sum_users {l : List P} (h : l.Nodup) (f : P → ℚ) : ((l.map f).sum : ℚ) = ∑ u ∈ l.toFinset, f u :=
  (List.sum_toFinset f h).symm

theorem cast_finset_sum (S : Finset P) (f : P → ℚ) : ((∑ u ∈ S, f u : ℚ) : ℝ) = ∑ u ∈ S, (f u : ℝ) :=
  map_sum (Rat.castHom ℝ) f S

theorem usersIn_nodup {V : Type} (k : K) (rows : List (P × K × V)) : (usersIn k rows).Nodup := List.nodup_dedup _

theorem user_has_rows {V : Type} {rows : List (P × K × V)} {u : P} {k : K} (h : u ∈ usersIn k rows) :
    u ∈ (rows.map fun r => r.1).toFinset ∧ k ∈ (partitionsOf u rows).toFinset ∧ cell u k rows ≠ [] := by
  have h1 := mem_usersIn.mp h
  refine ⟨?_, List.mem_toFinset.mpr h1, cell_ne_nil h1⟩
  simp only [usersIn, List.mem_dedup, List.mem_map, List.mem_filter] at h
  obtain ⟨r, ⟨hr, -⟩, rfl⟩ := h
  exact List.mem_toFinset.mpr (List.mem_map.mpr ⟨r, hr, rfl⟩)

theorem sum_cells {V M : Type} [AddCommMonoid M] (g : V → M) (k : K) (S : Finset P) (rows : List (P × K × V))
    (h : ∀ r ∈ rows, r.2.1 = k → r.1 ∈ S) :
    ∑ u ∈ S, ((cell u k rows).map g).sum = ((valuesIn k rows).map g).sum := by
  induction rows with
  | nil => simp [cell, valuesIn]
  | cons r rows ih =>
    have ih := ih fun x hx => h x (List.mem_cons_of_mem _ hx)
    by_cases hk : r.2.1 = k
    · have hr := h r (by simp) hk
      have e1 : ∀ u, ((cell u k (r :: rows)).map g).sum = (if u = r.1 then g r.2.2 else 0) + ((cell u k rows).map g).sum := by
        intro u
        by_cases hu : r.1 = u
        · subst hu; simp [cell, hk]
        · simp [cell, hu, Ne.symm hu]
      simp only [e1, Finset.sum_add_distrib, Finset.sum_ite_eq', hr, if_true, ih]
      simp [valuesIn, hk]
    · have e1 : ∀ u, cell u k (r :: rows) = cell u k rows := fun u => by simp [cell, hk]
      simp only [e1, ih]
      simp [valuesIn, hk]

theorem sum_over_users {V M : Type} [AddCommMonoid M] (g : V → M) (k : K) (rows : List (P × K × V)) :
    ((usersIn k rows).map fun u => ((cell u k rows).map g).sum).sum = ((valuesIn k rows).map g).sum := by
  rw [← List.sum_toFinset _ (usersIn_nodup k rows)]
  apply sum_cells
  intro r hr hk
  rw [List.mem_toFinset]
  simp only [usersIn, List.mem_dedup, List.mem_map, List.mem_filter, decide_eq_true_eq]
  exact ⟨r, ⟨hr, hk⟩, rfl⟩

theorem rows_over_users {V : Type} (k : K) (rows : List (P × K × V)) :
    ((usersIn k rows).map fun u => ((cell u k rows).length : ℚ)).sum = ((valuesIn k rows).length : ℚ) := by
  have := sum_over_users (fun _ : V => (1 : ℚ)) k rows
  simpa using this

theorem clip_eq_npClip (lo hi x : ℚ) : Engine.clip lo hi x = npClip x lo hi := rfl

theorem sampling_of_mem {cs : List (Combiner ℚ)} {c : Combiner ℚ} (i : Fin cs.length) (hi : cs[i] = c) (hc : c.sampling = true) :
    (Combiner.compound cs).sampling = true := by
  show (cs.any fun c => c.sampling) = true
  rw [List.any_eq_true]
  exact ⟨c, hi ▸ List.getElem_mem _, hc⟩

/-- Clipping at `lo`, `hi` and random choices of partitions: expectation and variance. -/
theorem predicts_of_kept {w : Ω → ℝ} {V : Type} {rows : List (P × K × V)} {l0 : ℕ} {kept : Ω → P → Finset K}
    (hu : UniformChoices w (rows.map fun r => r.1).toFinset (fun u => (partitionsOf u rows).toFinset) l0 kept)
    (hk : ∀ ω, ∀ u ∈ (rows.map fun r => r.1).toFinset, kept ω u ⊆ (partitionsOf u rows).toFinset ∧
      (kept ω u).card = min l0 ((partitionsOf u rows).toFinset).card)
    {lo hi : ℚ} (hle : lo ≤ hi) (x : P → ℚ) (k : K) (X : Ω → ℚ)
    (hX : ∀ ω, X ω = ∑ u ∈ (usersIn k rows).toFinset, if k ∈ kept ω u then npClip (x u) lo hi else 0) :
    Predicts w (sumAccOf lo hi l0 ((usersIn k rows).map fun u => (x u, (partitionsOf u rows).length))) X := by
  have hm := kept_moments hu hk (k := k) (U := (usersIn k rows).toFinset)
    (fun u h => (user_has_rows (List.mem_toFinset.mp h)).1) (fun u h => (user_has_rows (List.mem_toFinset.mp h)).2.1)
    (fun u => ((npClip (x u) lo hi : ℚ) : ℝ))
  have hcast : ∀ ω, (X ω : ℝ) = ∑ u ∈ (usersIn k rows).toFinset, if k ∈ kept ω u then ((npClip (x u) lo hi : ℚ) : ℝ) else 0 := by
    intro ω
    rw [hX ω, cast_finset_sum]
    exact Finset.sum_congr rfl fun u _ => by split_ifs <;> simp
  have hcard : ∀ u, ((partitionsOf u rows).toFinset).card = (partitionsOf u rows).length := fun u =>
    List.toFinset_card_of_nodup (partitionsOf_nodup u rows)
  constructor
  · simp only [hcast]
    rw [hm.1]
    have := sumAccOf_mean hle l0 ((usersIn k rows).map fun u => (x u, (partitionsOf u rows).length))
    rw [List.map_map, sum_users (usersIn_nodup k rows)] at this
    rw [← Rat.cast_add, ← Rat.cast_add, ← Rat.cast_add, this, cast_finset_sum]
    refine Finset.sum_congr rfl fun u _ => ?_
    simp only [Function.comp, hcard, npClip_eq_clamp hle]
    push_cast
    rfl
  · simp only [hcast]
    rw [hm.2, sumAccOf_var hle, List.map_map, sum_users (usersIn_nodup k rows), cast_finset_sum]
    refine Finset.sum_congr rfl fun u _ => ?_
    simp only [Function.comp, hcard, npClip_eq_clamp hle]
    push_cast
    rfl

theorem mean_const {w : Ω → ℝ} (hw : IsProbability w) (c : ℝ) : mean w (fun _ => c) = c := by
  unfold mean
  rw [← Finset.sum_mul, hw.total, one_mul]

theorem probKeep_one {l0 : ℕ} (h : 1 ≤ l0) : probKeep l0 1 = 1 := by
  have : (1 : ℚ) ≤ l0 := by exact_mod_cast h
  simp [probKeep, this]

/-- Without a limit on partitions the value is not random. -/
theorem predicts_of_all {w : Ω → ℝ} (hw : IsProbability w) {V : Type} {rows : List (P × K × V)} {l0 : ℕ} (hl0 : 1 ≤ l0)
    {lo hi : ℚ} (hle : lo ≤ hi) (x : P → ℚ) (k : K) (X : Ω → ℚ)
    (hX : ∀ ω, X ω = ∑ u ∈ (usersIn k rows).toFinset, npClip (x u) lo hi) :
    Predicts w (sumAccOf lo hi l0 ((usersIn k rows).map fun u => (x u, 1))) X := by
  simp only [show X = fun ω => _ from funext hX]
  constructor
  · rw [mean_const hw, ← Rat.cast_add, ← Rat.cast_add, ← Rat.cast_add, sumAccOf_mean hle, List.map_map,
      sum_users (usersIn_nodup k rows)]
    congr 1
    refine Finset.sum_congr rfl fun u _ => ?_
    simp [probKeep_one hl0, npClip_eq_clamp hle]
  · unfold variance
    rw [mean_const hw, sumAccOf_var hle, List.map_map, mean_const hw]
    simp [Function.comp_def, probKeep_one hl0]

/-! ### Properties -/

/-- **C64** (the metrics come from the data).  The analysis reports every partition once: the sampled partitions with data and
all public partitions.  The metrics of a partition are those of the list of its users with their numbers of rows, sums of
values and numbers of partitions (of relevant rows: rows of public partitions, if these are given), whatever the backend and
the order of merging.  Hypotheses: the values fit the combiners, and with public partitions there are neither several
columns nor selection of partitions. -/
theorem C64_metrics_of_the_data (B : Backend) (hB : B.Lawful)
    (comb : List (K × Except Err State) → List (K × Except Err State)) (combs : List Comb)
    (hc : LawfulCombine (mergeStates combs) comb) (approx : Moments → ℕ × List ℚ) (keep : K → Bool) (p : Engine.Params)
    (pub : Option (List K)) (rows : List (P × K × Val))
    (hf : p.publicFiltered = true → ∀ ps, pub = some ps → ∀ r ∈ rows, r.2.1 ∈ ps)
    (hs : SameShape ((relevant pub rows).map fun r => r.2.2))
    (hfit : ∀ c ∈ combs, ∀ r ∈ relevant pub rows, c.FitsValue r.2.2)
    (hpub : pub ≠ none → ∀ c ∈ combs, c.multiColumn = false ∧ c.isSelection = false) :
    ((analyze B comb approx combs keep p pub (.raw rows)).map Prod.fst).Nodup ∧
    (∀ k, k ∈ (analyze B comb approx combs keep p pub (.raw rows)).map Prod.fst ↔
      (keep k = true ∧ ∃ r ∈ relevant pub rows, r.2.1 = k) ∨ ∃ ps, pub = some ps ∧ k ∈ ps) ∧
    ∀ e ∈ analyze B comb approx combs keep p pub (.raw rows),
      e.2 = .ok (combs.map (specMetric approx
        ((if keep e.1 then usersIn e.1 (relevant pub rows) else []).map (userData p.performCross (relevant pub rows) e.1)))) := by
  obtain ⟨h1, h2, h3⟩ := analyze_tree B comb combs hc approx keep p pub (.raw rows)
  have hdata := analysisData_raw B hB keep p pub rows hf hs
  have hmem : ∀ k, k ∈ (analysisData B keep p pub (.raw rows)).map Prod.fst ↔ keep k = true ∧ ∃ r ∈ relevant pub rows, r.2.1 = k := by
    intro k
    rw [← valuesOf_ne_nil]
    have : valuesOf k (analysisData B keep p pub (.raw rows)) ≠ [] ↔
        (if keep k then usersIn k (relevant pub rows) else []).map (userData p.performCross (relevant pub rows) k) ≠ [] :=
      not_congr ⟨fun h => by have := hdata k; rw [h] at this; exact List.nil_perm.1 this,
        fun h => by have := hdata k; rw [h] at this; exact List.perm_nil.1 this⟩
    rw [this]
    cases hk : keep k
    · simp
    · simp only [if_true, ne_eq, List.map_eq_nil_iff, true_and]
      have hm : ∀ u, u ∈ usersIn k (relevant pub rows) ↔ ∃ r ∈ relevant pub rows, r.2.1 = k ∧ r.1 = u := fun u => by
        simp [usersIn, and_assoc]
      constructor
      · intro h
        obtain ⟨u, hu⟩ := List.exists_mem_of_ne_nil _ h
        obtain ⟨r, hr, hrk, -⟩ := (hm u).mp hu
        exact ⟨r, hr, hrk⟩
      · rintro ⟨r, hr, hrk⟩ h
        have := (hm r.1).mpr ⟨r, hr, hrk, rfl⟩
        rw [h] at this
        simp at this
  refine ⟨h1, fun k => ?_, fun e he => ?_⟩
  · rw [h2, hmem]
  · obtain ⟨t, ht1, ht2, ht3⟩ := h3 e he
    have hp := ht1.trans (hdata e.1)
    rw [ht3, C44_metrics approx combs t ?_ ?_ ?_]
    · congr 1
      exact List.map_congr_left fun c _ => specMetric_perm approx hp c
    · intro c hcm d hd
      have hd := hp.mem_iff.1 hd
      obtain ⟨u, hu, rfl⟩ := List.mem_map.mp hd
      have hu : u ∈ usersIn e.1 (relevant pub rows) := by
        cases hk : keep e.1 <;> simp [hk] at hu; exact hu
      have hcell : ∀ v ∈ cell u e.1 (relevant pub rows), ∃ r ∈ relevant pub rows, r.2.2 = v := by
        intro v hv
        obtain ⟨r, hr, rfl⟩ := List.mem_map.mp hv
        exact ⟨r, (List.mem_filter.mp hr).1, rfl⟩
      refine fits_sum (user_has_rows hu).2.2 (hs.subset fun v hv => ?_) (fun v hv => ?_) _ _
      · obtain ⟨r, hr, rfl⟩ := hcell v hv; exact List.mem_map.mpr ⟨r, hr, rfl⟩
      · obtain ⟨r, hr, rfl⟩ := hcell v hv; exact hfit c hcm r hr
    · by_cases hn : pub = none
      · exact Or.inr (ht2 hn)
      · exact Or.inl fun c hcm => (hpub hn c hcm).1
    · by_cases hn : pub = none
      · refine Or.inr fun h0 => ?_
        have : e.1 ∈ (analysisData B keep p pub (.raw rows)).map Prod.fst := by
          have := (h2 e.1).mp (List.mem_map.mpr ⟨e, he, rfl⟩)
          rcases this with h | ⟨ps, hps, -⟩
          · exact h
          · rw [hn] at hps; simp at hps
        rw [← valuesOf_ne_nil] at this
        rw [h0] at ht1
        exact this (List.nil_perm.1 ht1)
      · exact Or.inl fun c hcm => (hpub hn c hcm).2

/-- **C64** (errors).  For every sampled partition of the output and every configuration: the true value is the one of the
partition, and true value plus clipping errors plus expected cross-partition error is the expectation of the value which
the engine computes before noise with this configuration, the variance of the cross-partition error is the variance of
that value.  COUNT and PRIVACY_ID_COUNT: always.  SUM: if the engine samples no rows (no COUNT in the same aggregation) or
no user exceeds the bound per partition; with public partitions the bounds contain 0. -/
theorem C64_errors_predicted (A : Backend) (hA : A.Lawful)
    (acomb : List (K × Except Err State) → List (K × Except Err State)) (combs : List Comb)
    (hac : LawfulCombine (mergeStates combs) acomb) (approx : Moments → ℕ × List ℚ) (keep : K → Bool)
    (p p' : Engine.Params) (l0 linf : ℕ) (hp : p.performCross = p'.performCross) (hp' : Bounds p' l0 linf)
    (pub : Option (List K)) (rows : List (P × K × Val))
    (hf : p.publicFiltered = true ∨ p'.publicFiltered = true → ∀ ps, pub = some ps → ∀ r ∈ rows, r.2.1 ∈ ps)
    (hs : SameShape ((relevant pub rows).map fun r => r.2.2))
    (hfit : ∀ c ∈ combs, ∀ r ∈ relevant pub rows, c.FitsValue r.2.2)
    (hpub : pub ≠ none → ∀ c ∈ combs, c.multiColumn = false ∧ c.isSelection = false)
    (column : Option ℕ) (w : Ω → ℝ) (cs : List (Combiner ℚ)) (B : Ω → Backend)
    (comb : Ω → List (K × (Combiner.compound cs).Acc) → List (K × (Combiner.compound cs).Acc))
    (hex : Executions w p' l0 cs B comb pub (project column rows)) :
    ∃ outs : Ω → List (K × (Combiner.compound cs).Acc),
      (∀ ω, partitionAccumulators (B ω) cs (comb ω) (fun _ _ => true) p' pub (project column rows) = .ok (outs ω)) ∧
      ∀ e ∈ analyze A acomb approx combs keep p pub (.raw rows), keep e.1 = true →
        ∃ ms : List Metric, e.2 = .ok ms ∧ ms.length = combs.length ∧
        (∀ j : ℕ, combs[j]? = some (Comb.count linf l0) → ∀ (i : Fin cs.length) hi, ∃ a : SumAcc, ms[j]? = some (Metric.sum a) ∧
          a.sum = ((valuesIn e.1 (relevant pub rows)).length : ℚ) ∧
          Predicts w a fun ω => exactValue (Combiner.count ℚ) i hi (fun n : ℕ => (n : ℚ)) (outs ω) e.1) ∧
        (∀ j : ℕ, combs[j]? = some (Comb.idCount l0) → ∀ (i : Fin cs.length) hi, ∃ a : SumAcc, ms[j]? = some (Metric.sum a) ∧
          a.sum = ((usersIn e.1 (relevant pub rows)).length : ℚ) ∧
          Predicts w a fun ω => exactValue (Combiner.privacyIdCount ℚ) i hi (fun n : ℕ => (n : ℚ)) (outs ω) e.1) ∧
        (∀ (j : ℕ) (lo hi : ℚ), combs[j]? = some (Comb.sum column lo hi l0) → lo ≤ hi → (pub ≠ none → lo ≤ 0 ∧ 0 ≤ hi) →
          ((Combiner.compound cs).sampling = false ∨ ∀ u k, (cell u k (relevant pub rows)).length ≤ linf) →
          ∀ (i : Fin cs.length) hi', ∃ a : SumAcc, ms[j]? = some (Metric.sum a) ∧
          a.sum = (valuesIn e.1 (project column (relevant pub rows))).sum ∧
          Predicts w a fun ω => exactValue (Combiner.sumPerPartition lo hi) i hi' (fun x : ℚ => x) (outs ω) e.1) := by
  have hf1 : p.publicFiltered = true → ∀ ps, pub = some ps → ∀ r ∈ rows, r.2.1 ∈ ps := fun h => hf (Or.inl h)
  have hf2 : p'.publicFiltered = true → ∀ ps, pub = some ps → ∀ r ∈ project column rows, r.2.1 ∈ ps := by
    intro h ps hps r hr
    obtain ⟨x, hx, rfl⟩ := List.mem_map.mp hr
    exact hf (Or.inr h) ps hps x hx
  set rel := relevant pub rows with hrel
  have hrp : relevant pub (project column rows) = project column rel := relevant_project column pub rows
  choose kept hk1 hk2 _ outs ho1 ho2 using fun ω =>
    engine_value (B ω) (hex.backend ω) hp' cs (comb ω) (hex.combine ω) pub (project column rows) hf2
  refine ⟨outs, ho1, fun e he hke => ?_⟩
  obtain ⟨-, -, h3⟩ := C64_metrics_of_the_data A hA acomb combs hac approx keep p pub rows hf1 hs hfit hpub
  have hms := h3 e he
  rw [hke, if_pos rfl] at hms
  set nP : P → ℕ := fun u => if p.performCross then (partitionsOf u rel).length else 1 with hnP
  have hcell : ∀ u k, cell u k (relevant pub (project column rows)) = (cell u k rel).map (Val.at column) := fun u k => by
    rw [hrp]; exact cell_project column rel u k
  have husers : usersIn e.1 (relevant pub (project column rows)) = usersIn e.1 rel := by
    rw [hrp]; exact usersIn_project column rel e.1
  have hparts : ∀ u, partitionsOf u (relevant pub (project column rows)) = partitionsOf u rel := fun u => by
    rw [hrp]; exact partitionsOf_project column rel u
  have key : ∀ (c : Combiner ℚ) (i : Fin cs.length) (hi : cs[i] = c) (μ : c.Acc → ℚ), (∀ a b, μ (c.merge a b) = μ a + μ b) →
      (pub ≠ none → μ (c.create []) = 0) → ∀ (x : P → K → ℚ) (lo up : ℚ), lo ≤ up →
      (∀ ω, ∀ e ∈ kept ω, μ (c.create e.2) = npClip (x e.1.1 e.1.2) lo up) →
      Predicts w (sumAccOf lo up l0 ((usersIn e.1 rel).map fun u => (x u e.1, nP u)))
        fun ω => exactValue c i hi μ (outs ω) e.1 := by
    intro c i hi μ hadd h0 x lo up hle hval
    have hX : ∀ ω, exactValue c i hi μ (outs ω) e.1 = ∑ u ∈ (usersIn e.1 rel).toFinset,
        if e.1 ∈ keptPartitions (B ω) p' cs pub (project column rows) u then npClip (x u e.1) lo up else 0 := by
      intro ω
      rw [ho2 ω c i hi μ hadd h0 (fun u k => npClip (x u k) lo up) (hval ω) e.1, husers]
      exact Finset.sum_congr rfl fun u _ => by rw [hk2 ω u]
    cases hc : p'.performCross with
    | true =>
      have hlim : keptLimit p' l0 (relevant pub (project column rows)) = l0 := by simp [keptLimit, hc]
      have := predicts_of_kept (hex.uniform hc)
        (fun ω u _ => by rw [hk2 ω u]; have := keptOf_valid (hk1 ω) u; rwa [hlim] at this) hle (fun u => x u e.1) e.1
        (fun ω => exactValue c i hi μ (outs ω) e.1) (fun ω => by rw [hX ω, husers])
      rw [husers] at this
      simpa only [hparts, hnP, hp, hc, if_true] using this
    | false =>
      have hlim : keptLimit p' l0 (relevant pub (project column rows)) = (relevant pub (project column rows)).length := by
        simp [keptLimit, hc]
      have hn1 : nP = fun _ => 1 := by rw [hnP, hp, hc]; rfl
      rw [hn1]
      refine predicts_of_all hex.isProbability hp'.l0pos hle (fun u => x u e.1) e.1 _ fun ω => ?_
      rw [hX ω]
      refine Finset.sum_congr rfl fun u hu => if_pos ?_
      have hv := keptOf_valid (hk1 ω) u
      rw [hlim, List.toFinset_card_of_nodup (partitionsOf_nodup _ _), min_eq_right (partitionsOf_length _ _),
        ← List.toFinset_card_of_nodup (partitionsOf_nodup _ _)] at hv
      rw [hk2 ω u, Finset.eq_of_subset_of_card_le hv.1 hv.2.ge, hparts]
      exact (user_has_rows (List.mem_toFinset.mp hu)).2.1
  refine ⟨_, hms, by simp, ?_, ?_, ?_⟩
  · intro j hj i hi
    refine ⟨sumAccOf 0 linf l0 ((usersIn e.1 rel).map fun u => (((cell u e.1 rel).length : ℚ), nP u)),
      ?_, ?_, ?_⟩
    · rw [List.getElem?_map, hj]
      refine congrArg (fun l => some (Metric.sum (sumAccOf 0 linf l0 l))) ?_
      rw [List.map_map]
      exact List.map_congr_left fun u hu => rfl
    · show ((List.map _ _).sum : ℚ) = _
      rw [List.map_map]
      exact rows_over_users e.1 rel
    · refine key (Combiner.count ℚ) i hi (fun n : ℕ => (n : ℚ)) (fun a b => Nat.cast_add _ _) (fun _ => Nat.cast_zero)
        (fun u k => ((cell u k rel).length : ℚ)) 0 linf (by positivity) fun ω x hx => ?_
      have hl := (hk1 ω).sampled (sampling_of_mem i hi rfl) x hx
      rw [hcell, List.length_map] at hl
      show ((x.2.length : ℕ) : ℚ) = _
      rw [hl]
      unfold npClip
      rw [max_eq_left (by positivity), min_comm]
      push_cast
      rfl
  · intro j hj i hi
    refine ⟨sumAccOf 0 1 l0 ((usersIn e.1 rel).map fun u => (1, nP u)), ?_, ?_, ?_⟩
    · rw [List.getElem?_map, hj]
      simp only [Option.map_some, specMetric, List.map_map, Function.comp_def]
      congr 3
      refine List.map_congr_left fun u hu => ?_
      exact Prod.ext (if_pos (List.length_pos_iff.mpr (user_has_rows hu).2.2)) rfl
    · show ((List.map _ _).sum : ℚ) = _
      rw [List.map_map]
      have hone : ∀ l : List P, (l.map fun _ => (1 : ℚ)).sum = l.length := fun l => by simp
      exact hone _
    · refine key (Combiner.privacyIdCount ℚ) i hi (fun n : ℕ => (n : ℚ)) (fun a b => Nat.cast_add _ _) (fun _ => Nat.cast_zero)
        (fun u k => 1) 0 1 (by norm_num) fun ω x hx => ?_
      have := (hk1 ω).from_.nonempty x hx
      show (((if x.2.isEmpty = true then 0 else 1 : ℕ)) : ℚ) = _
      rw [if_neg (by simpa using this)]
      norm_num [npClip]
  · intro j lo up hj hle h0 hsmall i hi
    refine ⟨sumAccOf lo up l0 ((usersIn e.1 rel).map fun u => (((cell u e.1 rel).map (Val.at column)).sum, nP u)),
      ?_, ?_, ?_⟩
    · rw [List.getElem?_map, hj]
      simp only [Option.map_some, specMetric, List.map_map, Function.comp_def]
      congr 3
      refine List.map_congr_left fun u hu => ?_
      have hc : Comb.sum column lo up l0 ∈ combs := List.mem_of_getElem? hj
      have hin : ∀ v ∈ cell u e.1 rel, ∃ r ∈ rel, r.2.2 = v := by
        intro v hv
        obtain ⟨r, hr, rfl⟩ := List.mem_map.mp hv
        exact ⟨r, (List.mem_filter.mp hr).1, rfl⟩
      unfold userData
      rw [value_sum (lo := lo) (hi := up) (l0 := l0) (user_has_rows hu).2.2
        (hs.subset fun v hv => by obtain ⟨r, hr, rfl⟩ := hin v hv; exact List.mem_map.mpr ⟨r, hr, rfl⟩)
        (fun v hv => by obtain ⟨r, hr, rfl⟩ := hin v hv; exact hfit _ hc r hr)]
    · show ((List.map _ _).sum : ℚ) = _
      rw [List.map_map]
      have := sum_over_users (fun x : ℚ => x) e.1 (project column rel)
      rw [usersIn_project] at this
      simpa [cell_project, Function.comp_def] using this
    · refine key (Combiner.sumPerPartition lo up) i hi (fun x : ℚ => x) (fun a b => rfl) (fun hn => ?_)
        (fun u k => ((cell u k rel).map (Val.at column)).sum) lo up hle fun ω x hx => ?_
      · show Engine.clip lo up (List.sum []) = 0
        rw [clip_eq_npClip]
        unfold npClip
        rw [List.sum_nil, max_eq_left (h0 hn).1, min_eq_left (h0 hn).2]
      · have hperm : x.2.Perm (cell x.1.1 x.1.2 (relevant pub (project column rows))) := by
          cases hsm : (Combiner.compound cs).sampling with
          | false => exact (hk1 ω).whole hsm x hx
          | true =>
            have hl := (hk1 ω).sampled hsm x hx
            rw [hcell, List.length_map, min_eq_right ((hsmall.resolve_left (by simp [hsm])) _ _)] at hl
            refine ((hk1 ω).from_.fromInput x hx).perm_of_length_le ?_
            rw [hcell, List.length_map, hl]
        show Engine.clip lo up x.2.sum = _
        rw [clip_eq_npClip, hperm.sum_eq, hcell]

end PDP.Analysis
