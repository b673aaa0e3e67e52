import Verif.Analysis.Predicts
import Verif.Engine.Partitions
import Verif.Histogram.PreAgg

/-!
# Property C64 (continued): selection of partitions, pre-aggregated data, sampled partitions, and concrete cases
-/

set_option linter.unusedVariables false
set_option linter.unusedSectionVars false

namespace PDP.Analysis

open PDP
open PDP.Engine (Combiner MergeTree IsCombine LawfulCombine dropPartitions addEmptyPublic usersIn valuesIn relevant selectBounder
  partitionAccumulators partitionTotal accumulators dataAccumulators)

variable {Ω P K : Type} [Fintype Ω] [DecidableEq P] [DecidableEq K]

/-! ### Specification -/

/-- The number of users of partition `k` whose rows in it are kept by the engine. -/
def keptUsers (B : Backend) (p : Engine.Params) (cs : List (Combiner ℚ)) (rows : List (P × K × ℚ)) (k : K) : ℕ :=
  (usersIn k rows).countP fun u => decide (k ∈ keptPartitions B p cs none rows u)

/-- The decisions `dec` of the partition selector: a partition with `n` kept users is kept with probability `keepProb n`. -/
def SelectsWith (w : Ω → ℝ) (keepProb : ℕ → ℚ) (n : Ω → ℕ) (dec : Ω → ℕ → Bool) : Prop :=
  ∀ m, 1 ≤ m → prob w (fun ω => n ω = m ∧ dec ω m = true) = keepProb m * prob w fun ω => n ω = m

/-! ### Lemmas -/

/-- The partitions kept by the engine. -/
theorem engine_selects (B : Backend) (hB : B.Lawful) {p : Engine.Params} {l0 linf : ℕ} (hp : Bounds p l0 linf)
    (hpt : p.postThresholding = false) (hpf : p.publicFiltered = false)
    (cs : List (Combiner ℚ)) (comb : List (K × (Combiner.compound cs).Acc) → List (K × (Combiner.compound cs).Acc))
    (hcomb : LawfulCombine (Combiner.compound cs).merge comb) (rows : List (P × K × ℚ)) (dec : K → ℕ → Bool) :
    ∃ out, partitionAccumulators B cs comb dec p none rows = .ok out ∧
      ∀ k, k ∈ out.map Prod.fst ↔ 1 ≤ keptUsers B p cs rows k ∧ dec k (keptUsers B p cs rows k) = true := by
  obtain ⟨kept, h1, h2, hacc, -⟩ := engine_value B hB hp cs comb hcomb none rows (by simp)
  set accs := kept.map fun e => (e.1.2, (Combiner.compound cs).create e.2) with haccs
  have hadd : addEmptyPublic (Combiner.compound cs).create none accs = accs := rfl
  rw [hadd] at hacc
  have hC := hcomb accs
  have hone : ∀ e ∈ accs, Combiner.rowCount e.2 = 1 := by
    intro e he
    obtain ⟨x, -, rfl⟩ := List.mem_map.mp he
    rfl
  have hlen : ∀ k, (valuesOf k accs).length = keptUsers B p cs rows k := by
    intro k
    rw [haccs, valuesOf_entries', List.length_map]
    have := sum_entries h1.from_ (fun _ => (1 : ℕ)) (fun _ _ => 1) (fun _ _ => rfl) k
    simp only [List.map_const', List.sum_replicate, smul_eq_mul, mul_one] at this
    rw [this]
    unfold keptUsers
    show ∑ u ∈ (usersIn k rows).toFinset, _ = _
    rw [List.sum_toFinset _ (usersIn_nodup k rows), List.countP_eq_length_filter]
    simp only [h2]
    generalize usersIn k rows = l
    induction l with
    | nil => rfl
    | cons u l ih => by_cases hu : k ∈ keptOf kept u <;> simp [hu, ih, Nat.add_comm]
  refine ⟨(comb accs).filter fun e => dec e.1 (Engine.divideAndRoundUp (Combiner.rowCount e.2) 1), ?_, fun k => ?_⟩
  · unfold partitionAccumulators
    rw [hacc]
    simp [Engine.selectsPrivately, hpt, hpf, Engine.maxRowsPerId, hp.notEnforced, Engine.selectPrivate, bind, Except.bind, pure,
      Except.pure]
  · have hcnt : ∀ e ∈ comb accs, Engine.divideAndRoundUp (Combiner.rowCount e.2) 1 = keptUsers B p cs rows e.1 := by
      intro e he
      rw [Engine.divideAndRoundUp_one, Engine.rowCount_combined cs accs _ hC hone e he, hlen]
    rw [List.mem_map]
    constructor
    · rintro ⟨e, he, rfl⟩
      obtain ⟨he1, he2⟩ := List.mem_filter.mp he
      rw [hcnt e he1] at he2
      refine ⟨?_, he2⟩
      rw [← hlen, Nat.one_le_iff_ne_zero, Ne, List.length_eq_zero_iff]
      exact valuesOf_ne_nil.mpr ((hC.keys e.1).mp (List.mem_map.mpr ⟨e, he1, rfl⟩))
    · rintro ⟨hn, hd⟩
      rw [← hlen, Nat.one_le_iff_ne_zero, Ne, List.length_eq_zero_iff] at hn
      obtain ⟨e, he, rfl⟩ := List.mem_map.mp ((hC.keys k).mpr (valuesOf_ne_nil.mp hn))
      exact ⟨e, List.mem_filter.mpr ⟨he, by rw [hcnt e he]; exact hd⟩, rfl⟩

theorem prob_congr {w : Ω → ℝ} {E F : Ω → Prop} (h : ∀ ω, E ω ↔ F ω) : prob w E = prob w F := by
  have : E = F := funext fun ω => propext (h ω)
  rw [this]

/-- Splitting an event by the value of a bounded number. -/
theorem prob_split (w : Ω → ℝ) (E : Ω → Prop) (n : Ω → ℕ) (N : ℕ) (hn : ∀ ω, n ω ≤ N) :
    prob w E = ∑ m ∈ Finset.range (N + 1), prob w fun ω => n ω = m ∧ E ω := by
  classical
  simp only [prob_eq]
  rw [Finset.sum_comm]
  refine Finset.sum_congr rfl fun ω _ => ?_
  by_cases hE : E ω
  · simp only [hE, and_true, if_true]
    rw [Finset.sum_ite_eq, if_pos (Finset.mem_range.mpr (Nat.lt_succ_of_le (hn ω)))]
  · simp [hE]

theorem prob_true {w : Ω → ℝ} (hw : IsProbability w) : prob w (fun _ => True) = 1 := by
  rw [prob_eq]; simpa using hw.total

theorem successes_ones (l : List P) (m : ℕ) : successes (l.map fun _ => (1 : ℚ)) m = if m = l.length then 1 else 0 := by
  induction l generalizing m with
  | nil => rw [List.map_nil, successes_nil]; rfl
  | cons u l ih =>
    rw [List.map_cons, successes_cons]
    cases m with
    | zero => simp [shift]
    | succ m =>
      show (1 - 1) * _ + 1 * successes (l.map fun _ => (1 : ℚ)) m = _
      rw [ih m, sub_self, zero_mul, zero_add, one_mul, List.length_cons]
      simp only [Nat.add_right_cancel_iff]

/-! ### Properties -/

/-- **C64** (selection).  For a sampled partition with at most 100 users the analysis reports the exact probability that the
engine releases the partition with this configuration, if the selector keeps partitions with the probabilities known to the
analysis (none for a partition without users). -/
theorem C64_selection_probability (A : Backend) (hA : A.Lawful)
    (acomb : List (K × Except Err State) → List (K × Except Err State)) (combs : List Comb)
    (hac : LawfulCombine (mergeStates combs) acomb) (approx : Moments → ℕ × List ℚ) (keep : K → Bool)
    (p p' : Engine.Params) (l0 linf : ℕ) (hp : p.performCross = p'.performCross) (hp' : Bounds p' l0 linf)
    (hpt : p'.postThresholding = false) (hpf : p'.publicFiltered = false) (rows : List (P × K × Val))
    (hs : SameShape (rows.map fun r => r.2.2)) (hfit : ∀ c ∈ combs, ∀ r ∈ rows, c.FitsValue r.2.2)
    (column : Option ℕ) (w : Ω → ℝ) (cs : List (Combiner ℚ)) (B : Ω → Backend)
    (comb : Ω → List (K × (Combiner.compound cs).Acc) → List (K × (Combiner.compound cs).Acc))
    (hex : Executions w p' l0 cs B comb none (project column rows)) (dec : Ω → K → ℕ → Bool)
    (e : K × Except Err (List Metric)) (he : e ∈ analyze A acomb approx combs keep p none (.raw rows)) (hke : keep e.1 = true)
    (hN : (usersIn e.1 rows).length ≤ 100) (j : ℕ) (keepProb : ℕ → ℚ) (hj : combs[j]? = some (Comb.selection l0 keepProb))
    (h0 : keepProb 0 = 0)
    (hdec : SelectsWith w keepProb (fun ω => keptUsers (B ω) p' cs (project column rows) e.1) fun ω => dec ω e.1) :
    ∃ (ms : List Metric) (q : ℚ), e.2 = .ok ms ∧ ms[j]? = some (Metric.probability q) ∧
      prob w (fun ω => ∃ out, partitionAccumulators (B ω) cs (comb ω) (dec ω) p' none (project column rows) = .ok out ∧
        e.1 ∈ out.map Prod.fst) = q := by
  obtain ⟨-, -, h3⟩ := C64_metrics_of_the_data A hA acomb combs hac approx keep p none rows (by simp) hs hfit (by simp)
  have hms := h3 e he
  rw [hke, if_pos rfl] at hms
  have hrel : relevant none rows = rows := rfl
  rw [hrel] at hms
  set N := (usersIn e.1 rows).length with hNdef
  set ps : List ℚ := (usersIn e.1 rows).map fun u => probKeep l0 (if p.performCross then (partitionsOf u rows).length else 1) with hps
  refine ⟨_, ((List.range (N + 1)).map fun k => successes ps k * keepProb k).sum, hms, ?_, ?_⟩
  · rw [List.getElem?_map, hj]
    simp only [Option.map_some, specMetric, List.length_map, ← hNdef, if_pos hN, List.map_map]
    rfl
  · have hE : ∀ ω, (∃ out, partitionAccumulators (B ω) cs (comb ω) (dec ω) p' none (project column rows) = .ok out ∧
        e.1 ∈ out.map Prod.fst) ↔ 1 ≤ keptUsers (B ω) p' cs (project column rows) e.1 ∧
          dec ω e.1 (keptUsers (B ω) p' cs (project column rows) e.1) = true := by
      intro ω
      obtain ⟨out, ho1, ho2⟩ := engine_selects (B ω) (hex.backend ω) hp' hpt hpf cs (comb ω) (hex.combine ω) (project column rows)
        (dec ω)
      rw [← ho2]
      constructor
      · rintro ⟨out', h1, h2⟩
        rw [ho1] at h1
        obtain rfl : out = out' := by simpa using h1
        exact h2
      · exact fun h => ⟨out, ho1, h⟩
    have husers : usersIn e.1 (project column rows) = usersIn e.1 rows := usersIn_project column rows e.1
    have hparts : ∀ u, partitionsOf u (project column rows) = partitionsOf u rows := fun u => partitionsOf_project column rows u
    set n : Ω → ℕ := fun ω => keptUsers (B ω) p' cs (project column rows) e.1 with hn
    have hle : ∀ ω, n ω ≤ N := by
      intro ω
      rw [hn, hNdef, ← husers]
      exact List.countP_le_length
    choose kept hk1 hk2 _ using fun ω =>
      engine_value (B ω) (hex.backend ω) hp' cs (comb ω) (hex.combine ω) none (project column rows) (by simp)
    have hcount : ∀ m, prob w (fun ω => n ω = m) = successes ps m := by
      intro m
      cases hc : p'.performCross with
      | true =>
        have hlim : keptLimit p' l0 (relevant none (project column rows)) = l0 := by simp [keptLimit, hc]
        have := prob_count (hex.uniform hc)
          (fun ω u _ => by rw [hk2 ω u]; have := keptOf_valid (hk1 ω) u; rwa [hlim] at this) (k := e.1)
          (usersIn_nodup e.1 (project column rows)) (fun u hu => (user_has_rows hu).1) (fun u hu => (user_has_rows hu).2.1) m
        refine Eq.trans this ?_
        congr 2
        rw [hps, husers]
        refine List.map_congr_left fun u _ => ?_
        rw [List.toFinset_card_of_nodup (partitionsOf_nodup _ _), hp, hc]
        show probKeep l0 (partitionsOf u (project column rows)).length = _
        rw [hparts]
        rfl
      | false =>
        have hlim : keptLimit p' l0 (relevant none (project column rows)) = (relevant none (project column rows)).length := by
          simp [keptLimit, hc]
        have hall : ∀ ω, n ω = N := by
          intro ω
          show (usersIn e.1 (project column rows)).countP _ = _
          rw [hNdef, ← husers, List.countP_eq_length]
          intro u hu
          have hv := keptOf_valid (hk1 ω) u
          rw [hlim, List.toFinset_card_of_nodup (partitionsOf_nodup _ _), min_eq_right (partitionsOf_length _ _),
            ← List.toFinset_card_of_nodup (partitionsOf_nodup _ _)] at hv
          rw [decide_eq_true_eq, hk2 ω u, Finset.eq_of_subset_of_card_le hv.1 hv.2.ge]
          exact (user_has_rows hu).2.1
        have hps1 : ps = (usersIn e.1 rows).map fun _ => (1 : ℚ) := by
          rw [hps, hp, hc]
          exact List.map_congr_left fun u _ => probKeep_one hp'.l0pos
        rw [hps1, successes_ones, ← hNdef]
        by_cases hm : m = N
        · rw [if_pos hm, prob_congr (F := fun _ => True) (fun ω => by simp [hall ω, hm]), prob_true hex.isProbability]; simp
        · rw [if_neg hm, prob_eq, Finset.sum_eq_zero fun ω _ => if_neg (by rw [hall ω]; exact fun h => hm h.symm)]; simp
    rw [prob_congr hE, prob_split w _ n N hle]
    have hsum : ((List.range (N + 1)).map fun k => successes ps k * keepProb k).sum
        = ∑ m ∈ Finset.range (N + 1), successes ps m * keepProb m := by
      rw [← List.toFinset_range, List.sum_toFinset (fun m => successes ps m * keepProb m) List.nodup_range]
    rw [hsum, cast_finset_sum]
    refine Finset.sum_congr rfl fun m _ => ?_
    cases m with
    | zero =>
      rw [h0, prob_eq, Finset.sum_eq_zero fun ω _ => if_neg (by rintro ⟨h1, h2, -⟩; rw [show keptUsers _ _ _ _ _ = 0 from h1] at h2; omega)]
      simp
    | succ m =>
      rw [Rat.cast_mul, ← hcount, mul_comm, ← hdec (m + 1) (by omega)]
      refine prob_congr fun ω => ?_
      constructor
      · rintro ⟨h1, -, h3⟩
        exact ⟨h1, by rw [← h1]; exact h3⟩
      · rintro ⟨h1, h3⟩
        have h1' : keptUsers (B ω) p' cs (project column rows) e.1 = m + 1 := h1
        exact ⟨h1, by omega, by rw [h1']; exact h3⟩

/-- **C64** (code defect).  With sampling of partitions, a public partition which is not sampled is still reported, with the
metrics of a partition without data. -/
theorem C64_unsampled_public_partition_looks_empty (B : Backend) (hB : B.Lawful)
    (comb : List (K × Except Err State) → List (K × Except Err State)) (combs : List Comb)
    (hc : LawfulCombine (mergeStates combs) comb) (approx : Moments → ℕ × List ℚ) (keep : K → Bool) (p : Engine.Params)
    (ps : List K) (rows : List (P × K × Val)) (hf : p.publicFiltered = true → ∀ r ∈ rows, r.2.1 ∈ ps)
    (hs : SameShape ((relevant (some ps) rows).map fun r => r.2.2))
    (hfit : ∀ c ∈ combs, ∀ r ∈ relevant (some ps) rows, c.FitsValue r.2.2)
    (hpub : ∀ c ∈ combs, c.multiColumn = false ∧ c.isSelection = false) (k : K) (hk : k ∈ ps) (hkeep : keep k = false) :
    (k, .ok (combs.map (specMetric approx []))) ∈ analyze B comb approx combs keep p (some ps) (.raw rows) := by
  obtain ⟨-, h2, h3⟩ := C64_metrics_of_the_data B hB comb combs hc approx keep p (some ps) rows
    (fun h ps' hps => by obtain rfl : ps = ps' := by simpa using hps
                         exact hf h) hs hfit fun _ => hpub
  obtain ⟨e, he, rfl⟩ := List.mem_map.mp ((h2 k).mpr (Or.inr ⟨ps, rfl, hk⟩))
  have := h3 e he
  rw [hkeep] at this
  simp only [Bool.false_eq_true, if_false, List.map_nil] at this
  rw [← this]
  exact he

theorem valuesOf_pre (p : Engine.Params) (pub : Option (List K)) (rows : List (K × Data))
    (hf : p.publicFiltered = true → ∀ ps, pub = some ps → ∀ r ∈ rows, r.1 ∈ ps) (B : Backend) (keep : K → Bool) (k : K) :
    valuesOf k (analysisData B keep p pub (.preAggregated rows : Input P K))
      = if ∀ ps, pub = some ps → k ∈ ps then valuesOf k rows else [] := by
  unfold analysisData
  dsimp only
  rw [Engine.dropPartitions_eq_relevant p pub _ (fun h ps hps r hr => by
    obtain ⟨x, hx, rfl⟩ := List.mem_map.mp hr; exact hf h ps hps x hx)]
  cases pub with
  | none => simp [relevant, valuesOf, Function.comp_def]
  | some ps =>
    simp only [relevant, Option.some.injEq, forall_eq']
    unfold valuesOf
    rw [List.filter_map, List.filter_filter, List.filter_map, List.map_map, List.map_map]
    by_cases hk : k ∈ ps
    · rw [if_pos hk]
      refine congrArg (List.map _) (List.filter_congr fun r _ => ?_)
      simp only [Function.comp]
      by_cases h : r.1 = k <;> simp [h, hk]
    · rw [if_neg hk, List.map_eq_nil_iff, List.filter_eq_nil_iff]
      intro r _
      simp only [Function.comp, Bool.and_eq_true, decide_eq_true_eq, not_and]
      rintro rfl
      exact hk

/-- **C64** (pre-aggregated data).  The metrics of a partition are those of its pre-aggregated rows, one user per row. -/
theorem C64_metrics_of_preaggregated_data (B : Backend)
    (comb : List (K × Except Err State) → List (K × Except Err State)) (combs : List Comb)
    (hc : LawfulCombine (mergeStates combs) comb) (approx : Moments → ℕ × List ℚ) (keep : K → Bool) (p : Engine.Params)
    (pub : Option (List K)) (rows : List (K × Data))
    (hf : p.publicFiltered = true → ∀ ps, pub = some ps → ∀ r ∈ rows, r.1 ∈ ps)
    (hfit : ∀ c ∈ combs, ∀ r ∈ rows, c.Fits r.2)
    (hpub : pub ≠ none → ∀ c ∈ combs, c.multiColumn = false ∧ c.isSelection = false) :
    ((analyze B comb approx combs keep p pub (.preAggregated rows : Input P K)).map Prod.fst).Nodup ∧
    (∀ k, k ∈ (analyze B comb approx combs keep p pub (.preAggregated rows : Input P K)).map Prod.fst ↔
      (pub = none ∧ k ∈ rows.map Prod.fst) ∨ ∃ ps, pub = some ps ∧ k ∈ ps) ∧
    ∀ e ∈ analyze B comb approx combs keep p pub (.preAggregated rows : Input P K),
      e.2 = .ok (combs.map (specMetric approx (valuesOf e.1 rows))) := by
  obtain ⟨h1, h2, h3⟩ := analyze_tree B comb combs hc approx keep p pub (.preAggregated rows : Input P K)
  have hv := valuesOf_pre (P := P) p pub rows hf B keep
  have hkeys : ∀ k, k ∈ (analyze B comb approx combs keep p pub (.preAggregated rows : Input P K)).map Prod.fst ↔
      (pub = none ∧ k ∈ rows.map Prod.fst) ∨ ∃ ps, pub = some ps ∧ k ∈ ps := by
    intro k
    rw [h2, ← valuesOf_ne_nil, hv, ← valuesOf_ne_nil]
    cases pub with
    | none => simp
    | some ps => by_cases hk : k ∈ ps <;> simp [hk]
  refine ⟨h1, hkeys, fun e he => ?_⟩
  obtain ⟨t, ht1, ht2, ht3⟩ := h3 e he
  have hpubk : ∀ ps, pub = some ps → e.1 ∈ ps := by
    intro ps hps
    rcases (hkeys e.1).mp (List.mem_map.mpr ⟨e, he, rfl⟩) with ⟨h, -⟩ | ⟨ps', h, hk⟩
    · rw [h] at hps; simp at hps
    · obtain rfl : ps' = ps := by rw [h] at hps; simpa using hps
      exact hk
  rw [hv, if_pos hpubk] at ht1
  rw [ht3, C44_metrics approx combs t ?_ ?_ ?_]
  · congr 1
    exact List.map_congr_left fun c _ => specMetric_perm approx ht1 c
  · intro c hcm d hd
    exact hfit c hcm _ (mem_valuesOf.mp (ht1.mem_iff.1 hd))
  · by_cases hn : pub = none
    · exact Or.inr (ht2 hn)
    · exact Or.inl fun c hcm => (hpub hn c hcm).1
  · by_cases hn : pub = none
    · refine Or.inr fun h0 => ?_
      rw [h0] at ht1
      rcases (hkeys e.1).mp (List.mem_map.mpr ⟨e, he, rfl⟩) with ⟨-, h⟩ | ⟨ps', h, -⟩
      · exact valuesOf_ne_nil.mpr h (List.nil_perm.1 ht1)
      · rw [hn] at h; simp at h
    · exact Or.inl fun c hcm => (hpub hn c hcm).2

/-- The rows of `preaggregate` as input of the analysis. -/
def preData (rows : List (K × Histogram.PreRow)) : List (K × Data) :=
  rows.map fun r => (r.1, ⟨r.2.count, .scalar r.2.sum, r.2.nPartitions⟩)

/-- Rows with numbers as values. -/
def scalarRows (rows : List (P × K × ℚ)) : List (P × K × Val) := rows.map fun r => (r.1, r.2.1, .scalar r.2.2)

theorem preData_users (O : Ops) (hO : O.Lawful) (rows : List (P × K × ℚ)) (keep : K → Bool) (k : K) :
    (valuesOf k (preData (Histogram.preaggregate O keep rows))).Perm
      ((if keep k then usersIn k (scalarRows rows) else []).map (userData true (scalarRows rows) k)) := by
  have hp := (Histogram.preaggregate_perm O hO rows keep).map
    fun r : K × Histogram.PreRow => (r.1, (⟨r.2.count, .scalar r.2.sum, r.2.nPartitions⟩ : Data))
  have hp := (hp.filter fun e => decide (e.1 = k)).map Prod.snd
  refine hp.trans ?_
  rw [List.map_map, List.filter_map, List.filter_filter, List.map_map]
  cases hk : keep k with
  | false =>
    rw [List.filter_eq_nil_iff.mpr]
    · simp
    · intro pk _
      simp only [Function.comp, Bool.and_eq_true, decide_eq_true_eq, not_and]
      rintro rfl
      simp [hk]
  | true =>
    have hcell : ∀ u, cell u k (scalarRows rows) = (cell u k rows).map Val.scalar := fun u => by
      unfold cell scalarRows
      rw [List.filter_map, List.map_map, List.map_map]
      rfl
    have hdata : ∀ u ∈ usersIn k (scalarRows rows), userData true (scalarRows rows) k u
        = ⟨Histogram.rowsOfPair rows (u, k), .scalar (Histogram.sumOfPair rows (u, k)), Histogram.partitionsOfId rows u⟩ := by
      intro u hu
      unfold userData
      rw [hcell, sumValues_scalar (by intro v hv; obtain ⟨x, -, rfl⟩ := List.mem_map.mp hv; exact ⟨x, rfl⟩), List.map_map]
      congr 1
      · simp [cell, Histogram.rowsOfPair]
      · simp [cell, Histogram.sumOfPair, Function.comp_def, Val.num]
      · simp only [if_true, partitionsOf, Histogram.partitionsOfId, scalarRows]
        rw [List.filter_map, List.map_map]
        rfl
    simp only [if_true]
    rw [List.map_congr_left hdata]
    have : (((Histogram.allPairs rows).filter fun pk => decide (pk.2 = k)).map fun pk => pk.1).Perm (usersIn k (scalarRows rows)) := by
      rw [List.perm_ext_iff_of_nodup]
      · intro u
        simp only [List.mem_map, List.mem_filter, Histogram.allPairs, List.mem_dedup, decide_eq_true_eq, usersIn, scalarRows]
        constructor
        · rintro ⟨pk, ⟨⟨r, hr, rfl⟩, rfl⟩, rfl⟩
          exact ⟨_, ⟨⟨r, hr, rfl⟩, rfl⟩, rfl⟩
        · rintro ⟨x, ⟨⟨r, hr, rfl⟩, rfl⟩, rfl⟩
          exact ⟨_, ⟨⟨r, hr, rfl⟩, rfl⟩, rfl⟩
      · refine List.Nodup.map_on ?_ ((List.nodup_dedup _).filter _)
        intro x hx y hy hxy
        simp only [List.mem_filter, decide_eq_true_eq] at hx hy
        exact Prod.ext hxy (hx.2.trans hy.2.symm)
      · exact usersIn_nodup _ _
    refine List.Perm.trans (List.Perm.of_eq ?_) (this.map _)
    rw [List.map_map]
    have hfilter : ((Histogram.allPairs rows).filter fun pk => (decide ((pk.2 : K) = k) && keep pk.2))
        = (Histogram.allPairs rows).filter fun pk => decide (pk.2 = k) := by
      refine List.filter_congr fun pk _ => ?_
      by_cases h : pk.2 = k
      · simp [h, hk]
      · simp [h]
    refine Eq.trans (congrArg (List.map _) hfilter) (List.map_congr_left fun pk hpk => ?_)
    obtain ⟨-, h⟩ := List.mem_filter.mp hpk
    simp only [decide_eq_true_eq] at h
    obtain ⟨u, k'⟩ := pk
    obtain rfl : k' = k := h
    rfl

/-- **C64** (pre-aggregated data).  Without public partitions, the analysis of pre-aggregated rows (of sampled partitions) gives
for every partition the same metrics as the analysis of the rows themselves. -/
theorem C64_preaggregated_like_raw (B B' : Backend) (hB' : B'.Lawful) (O : Ops) (hO : O.Lawful)
    (comb comb' : List (K × Except Err State) → List (K × Except Err State)) (combs : List Comb)
    (hc : LawfulCombine (mergeStates combs) comb) (hc' : LawfulCombine (mergeStates combs) comb')
    (approx : Moments → ℕ × List ℚ) (keep keep' : K → Bool) (p : Engine.Params) (hp : p.performCross = true)
    (hcols : ∀ c ∈ combs, c.multiColumn = false) (rows : List (P × K × ℚ)) :
    (analyze B comb approx combs keep' p none (.preAggregated (preData (Histogram.preaggregate O keep rows)) : Input P K)).Perm
      (analyze B' comb' approx combs keep p none (.raw (scalarRows rows))) := by
  have hfit : ∀ c ∈ combs, ∀ r ∈ scalarRows rows, c.FitsValue r.2.2 := by
    intro c hcm r hr
    obtain ⟨x, -, rfl⟩ := List.mem_map.mp hr
    cases c with
    | sum column lo hi l0 =>
      cases column with
      | none => exact ⟨_, rfl⟩
      | some i => exact absurd (hcols _ hcm) (by simp [Comb.multiColumn])
    | _ => trivial
  have hfit' : ∀ c ∈ combs, ∀ r ∈ preData (Histogram.preaggregate O keep rows), c.Fits r.2 := by
    intro c hcm r hr
    obtain ⟨x, -, rfl⟩ := List.mem_map.mp hr
    cases c with
    | sum column lo hi l0 =>
      cases column with
      | none => exact ⟨_, rfl⟩
      | some i => exact absurd (hcols _ hcm) (by simp [Comb.multiColumn])
    | _ => trivial
  obtain ⟨a1, a2, a3⟩ := C64_metrics_of_preaggregated_data (P := P) B comb combs hc approx keep' p none
    (preData (Histogram.preaggregate O keep rows)) (by simp) hfit' (by simp)
  obtain ⟨b1, b2, b3⟩ := C64_metrics_of_the_data B' hB' comb' combs hc' approx keep p none (scalarRows rows) (by simp)
    (Or.inl fun v hv => by
      obtain ⟨r, hr, rfl⟩ := List.mem_map.mp hv
      obtain ⟨x, -, rfl⟩ := List.mem_map.mp (show r ∈ List.map _ rows from hr)
      exact ⟨_, rfl⟩) hfit (by simp)
  have hval : ∀ k, combs.map (specMetric approx (valuesOf k (preData (Histogram.preaggregate O keep rows))))
      = combs.map (specMetric approx ((if keep k then usersIn k (relevant none (scalarRows rows)) else []).map
          (userData p.performCross (relevant none (scalarRows rows)) k))) := by
    intro k
    rw [hp]
    exact List.map_congr_left fun c _ => specMetric_perm approx (preData_users O hO rows keep k) c
  have hkeys : ∀ k, k ∈ (preData (Histogram.preaggregate O keep rows)).map Prod.fst ↔
      keep k = true ∧ ∃ r ∈ scalarRows rows, r.2.1 = k := by
    intro k
    rw [← valuesOf_ne_nil]
    have := preData_users O hO rows keep k
    constructor
    · intro h
      obtain ⟨d, hd⟩ := List.exists_mem_of_ne_nil _ h
      obtain ⟨u, hu, -⟩ := List.mem_map.mp (this.mem_iff.1 hd)
      cases hk : keep k with
      | false => simp [hk] at hu
      | true =>
        simp only [hk, if_true, usersIn, List.mem_dedup, List.mem_map, List.mem_filter, decide_eq_true_eq] at hu
        obtain ⟨r, ⟨hr, hrk⟩, -⟩ := hu
        exact ⟨rfl, r, hr, hrk⟩
    · rintro ⟨hk, r, hr, hrk⟩ h
      rw [h, hk, if_pos rfl] at this
      have h2 := List.map_eq_nil_iff.mp (List.nil_perm.1 this)
      have : r.1 ∈ usersIn k (scalarRows rows) := by
        simp only [usersIn, List.mem_dedup, List.mem_map, List.mem_filter, decide_eq_true_eq]
        exact ⟨r, ⟨hr, hrk⟩, rfl⟩
      rw [h2] at this
      simp at this
  rw [List.perm_ext_iff_of_nodup a1.of_map b1.of_map]
  intro e
  constructor
  · intro he
    have hk := (a2 e.1).mp (List.mem_map.mpr ⟨e, he, rfl⟩)
    simp only [true_and, reduceCtorEq, false_and, exists_false, or_false] at hk
    obtain ⟨e', he', hee⟩ := List.mem_map.mp ((b2 e.1).mpr (Or.inl ((hkeys e.1).mp hk)))
    have : e' = e := Prod.ext hee (by rw [b3 e' he', a3 e he, hval, hee])
    rwa [← this]
  · intro he
    have hk := (b2 e.1).mp (List.mem_map.mpr ⟨e, he, rfl⟩)
    simp only [reduceCtorEq, false_and, exists_false, or_false] at hk
    obtain ⟨e', he', hee⟩ := List.mem_map.mp ((a2 e.1).mpr (Or.inl ⟨rfl, (hkeys e.1).mpr hk⟩))
    have : e' = e := Prod.ext hee (by rw [a3 e' he', b3 e he, hval, hee])
    rwa [← this]

/-! ### Concrete cases -/

/-- An approximation for partitions with more than 100 users, which do not occur here. -/
def noApprox (_ : Moments) : ℕ × List ℚ := (0, [])

/-- User 1 has rows in partitions 10 (two) and 20, user 2 in partition 10. -/
def predictRows : List (ℕ × ℕ × Val) := [(1, 10, .scalar 3), (1, 10, .scalar 4), (1, 20, .scalar 5), (2, 10, .scalar 2)]

/-- One partition per user, two rows per user and partition. -/
def predictParams : Engine.Params := { metrics := [.count, .privacyIdCount, .sum], maxPartitions := some 1, maxPerPartition := some 2 }

/-- COUNT, PRIVACY_ID_COUNT and SUM with sums clipped at 0 and 6. -/
def predictCombiners : List (Combiner ℚ) := [Combiner.count ℚ, Combiner.privacyIdCount ℚ, Combiner.sumPerPartition 0 6]

/-- Selection, COUNT, PRIVACY_ID_COUNT and SUM of the analysis. -/
def predictCombs : List Comb :=
  [.selection 1 fun n => if n = 0 then 0 else 1 / 2, .count 2 1, .idCount 1, .sum none 0 6 1]

/-- Two equally probable executions: the first or the last partitions are kept. -/
def predictBackend (ω : Bool) : Backend := localBackend (if ω then firstRng else lastRng)

theorem predict_uniform : UniformChoices (fun _ : Bool => (1 / 2 : ℝ))
    ((relevant none (project none predictRows)).map fun r => r.1).toFinset
    (fun u => (partitionsOf u (relevant none (project none predictRows))).toFinset) 1
    fun ω => keptPartitions (predictBackend ω) predictParams predictCombiners none (project none predictRows) := by
  have hu : ((relevant none (project none predictRows)).map fun r => r.1).toFinset = {1, 2} := by decide +kernel
  have h1 : (partitionsOf 1 (relevant none (project none predictRows))).toFinset = {10, 20} := by decide +kernel
  have h2 : (partitionsOf 2 (relevant none (project none predictRows))).toFinset = {10} := by decide +kernel
  have k1 : keptPartitions (predictBackend true) predictParams predictCombiners none (project none predictRows) 1 = {10} := by
    decide +kernel
  have k2 : keptPartitions (predictBackend false) predictParams predictCombiners none (project none predictRows) 1 = {20} := by
    decide +kernel
  have k3 : ∀ ω, keptPartitions (predictBackend ω) predictParams predictCombiners none (project none predictRows) 2 = {10} := by
    decide +kernel
  intro S hS
  rw [hu] at hS ⊢
  have s1 := hS 1 (by simp)
  have s2 := hS 2 (by simp)
  dsimp only at s1 s2 ⊢
  rw [h1] at s1
  rw [h2] at s2
  have e2 : S 2 = {10} := Finset.eq_of_subset_of_card_le s2.1 (by rw [s2.2]; simp)
  have e1 : S 1 = {10} ∨ S 1 = {20} := by
    obtain ⟨a, ha⟩ := Finset.card_eq_one.mp (s1.2.trans (by simp))
    have := s1.1 (by rw [ha]; simp : a ∈ S 1)
    simp only [Finset.mem_insert, Finset.mem_singleton] at this
    rcases this with rfl | rfl
    · exact Or.inl ha
    · exact Or.inr ha
  rw [Finset.prod_insert (by simp), Finset.prod_singleton, h1, h2, prob_eq]
  rcases e1 with e1 | e1
  · simp [Finset.forall_mem_insert, k1, k2, k3, e1, e2]
  · simp [Finset.forall_mem_insert, k1, k2, k3, e1, e2]

/-- The hypotheses of `C64_errors_predicted` and `C64_selection_probability` are met. -/
theorem predict_executions : Executions (fun _ : Bool => (1 / 2 : ℝ)) predictParams 1 predictCombiners predictBackend
    (fun _ => Engine.localCombine (Combiner.compound predictCombiners).merge) none (project none predictRows) where
  isProbability := ⟨fun _ => by norm_num, by simp⟩
  backend ω := C39_local_backend_lawful _
  combine ω := Engine.localCombine_lawful _
  uniform _ := predict_uniform

example : Bounds predictParams 1 2 := ⟨rfl, rfl, rfl, le_rfl, by norm_num, rfl⟩
example : SameShape (predictRows.map fun r => r.2.2) := Or.inl (by simp [predictRows])
example : ∀ c ∈ predictCombs, ∀ r ∈ predictRows, c.FitsValue r.2.2 := by simp [predictCombs, predictRows, Comb.FitsValue]

/-- Partition 10: kept by user 1 with probability 1/2, by user 2 always. -/
example : analyze (localBackend firstRng) (Engine.localCombine (mergeStates predictCombs)) noApprox predictCombs (fun _ => true) predictParams
      none (.raw predictRows) =
    [(10, .ok [.probability (1 / 2), .sum ⟨3, 0, 0, -1, 1⟩, .sum ⟨2, 0, 0, -1 / 2, 1 / 4⟩, .sum ⟨9, 0, -1, -3, 9⟩]),
     (20, .ok [.probability (1 / 4), .sum ⟨1, 0, 0, -1 / 2, 1 / 4⟩, .sum ⟨1, 0, 0, -1 / 2, 1 / 4⟩, .sum ⟨5, 0, 0, -5 / 2, 25 / 4⟩])] := by
  decide +kernel

/-- The counts of partition 10 in the two executions are 3 and 1: mean 2 = 3 - 1, variance 1. -/
example : ∃ o o', partitionAccumulators (predictBackend true) predictCombiners (Engine.localCombine (Combiner.compound predictCombiners).merge)
      (fun _ _ => true) predictParams none (project none predictRows) = .ok o ∧
    partitionAccumulators (predictBackend false) predictCombiners (Engine.localCombine (Combiner.compound predictCombiners).merge)
      (fun _ _ => true) predictParams none (project none predictRows) = .ok o' ∧
    exactValue (cs := predictCombiners) (Combiner.count ℚ) ⟨0, by decide⟩ rfl (fun n : ℕ => (n : ℚ)) o 10 = 3 ∧
    exactValue (cs := predictCombiners) (Combiner.count ℚ) ⟨0, by decide⟩ rfl (fun n : ℕ => (n : ℚ)) o' 10 = 1 :=
  ⟨_, _, rfl, rfl, by decide +kernel, by decide +kernel⟩

/-- Decisions by a coin which is independent of the sampling: `SelectsWith` is met. -/
example : SelectsWith (fun _ : Bool × Bool => (1 / 4 : ℝ)) (fun n => if n = 0 then 0 else 1 / 2)
    (fun ω => if ω.1 then 2 else 1) fun ω _ => ω.2 := by
  intro m hm
  have hm0 : m ≠ 0 := by omega
  simp only [prob_eq, Fintype.sum_prod_type, Fintype.sum_bool, hm0, if_false]
  by_cases h2 : m = 2
  · subst h2; norm_num
  · by_cases h1 : m = 1
    · subst h1; norm_num
    · simp [Ne.symm h1, Ne.symm h2]

/-- Public partition 20 is not sampled: it looks like the empty public partition 30, although it has data. -/
example : analyze (localBackend firstRng) (Engine.localCombine (mergeStates [.raw, .count 2 1])) noApprox [.raw, .count 2 1]
      (fun k => k ≠ 20) predictParams (some [10, 20, 30]) (.raw predictRows) =
    [(10, .ok [.raw 2 3, .sum ⟨3, 0, 0, -1, 1⟩]), (20, .ok [.raw 0 0, .sum ⟨0, 0, 0, 0, 0⟩]), (30, .ok [.raw 0 0, .sum ⟨0, 0, 0, 0, 0⟩])] := by
  decide +kernel

/-- **C64** (code defect).  With public partitions the analysis of pre-aggregated data differs from the analysis of the data:
the number of partitions of a user includes the dropped ones. -/
theorem C64_preaggregated_public_partitions_differ :
    ∃ (rows : List (ℕ × ℕ × ℚ)) (p : Engine.Params) (ps : List ℕ), p.performCross = true ∧ p.publicFiltered = false ∧
      analyze (localBackend firstRng) (Engine.localCombine (mergeStates [.count 2 1])) noApprox [.count 2 1] (fun _ => true) p (some ps)
        (.preAggregated (preData (Histogram.preaggregate localOps (fun _ => true) rows)) : Input ℕ ℕ) = [(10, .ok [.sum ⟨2, 0, 0, -1, 1⟩])] ∧
      analyze (localBackend firstRng) (Engine.localCombine (mergeStates [.count 2 1])) noApprox [.count 2 1] (fun _ => true) p (some ps)
        (.raw (scalarRows rows)) = [(10, .ok [.sum ⟨2, 0, 0, 0, 0⟩])] :=
  ⟨[(1, 10, 3), (1, 10, 4), (1, 20, 5)], predictParams, [10], rfl, rfl, by decide +kernel, by decide +kernel⟩

end PDP.Analysis
