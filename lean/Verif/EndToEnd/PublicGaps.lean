import Verif.EndToEnd.Accepted

/-!
# Public partitions with bounds of the sum per partition, and with post-aggregation thresholding (C23, C61)

Two settings in which the result for public partitions is not what C23 and C61 say in general.
-/

set_option linter.unusedSectionVars false

namespace PDP.EndToEnd

open PDP PDP.Engine
open PDP.Engine.Mechanism (Additive createThresholding computed)
open PDP.Validation (Raw postInit checkAggregate)

variable {R P K : Type} [DecidableEq P] [DecidableEq K]

/-! ### SUM with bounds per partition -/

/-- **C61.** SUM with bounds per partition and public partitions, for any bounds: every listing of a partition adds the clipped sum of
no values to the sum over the users, also if the partition has data. -/
theorem C61_public_listings_add_to_sums (B : Backend) (hB : B.Lawful) (p : Params) (hp : p.BoundsValid) (keep : K → ℕ → Bool)
    (ps : List K) (cs : List (Combiner ℚ))
    (comb : List (K × (Combiner.compound cs).Acc) → List (K × (Combiner.compound cs).Acc))
    (hcomb : LawfulCombine (Combiner.compound cs).merge comb) (col : List (P × K × ℚ))
    (hf : p.publicFiltered = true → ∀ r ∈ col, r.2.1 ∈ ps) (hb : p.boundsEnforced = false)
    (hw : WithinPartitionBounds p (relevant (some ps) col))
    (hr : (∃ c ∈ cs, c ≠ Combiner.privacyIdCount ℚ ∧ ∀ a b, c ≠ Combiner.sumPerPartition a b) →
      WithinRowBounds p (relevant (some ps) col))
    (lo hi : ℚ) (i : Fin cs.length) (h : cs[i] = Combiner.sumPerPartition lo hi) :
    ∃ out, partitionAccumulators B cs comb keep p (some ps) col = .ok out ∧
      ∀ e ∈ out, (Combiner.readAs _ i h e.2 : ℚ)
        = ((usersIn e.1 (relevant (some ps) col)).map fun u =>
            min (max (cell u e.1 (relevant (some ps) col)).sum lo) hi).sum + (ps.count e.1 : ℚ) * min (max 0 lo) hi := by
  have hs : (Combiner.compound cs).sampling = true → WithinRowBounds p (relevant (some ps) col) := by
    intro hs
    obtain ⟨c, hc, hc2⟩ := List.any_eq_true.mp hs
    refine hr ⟨c, hc, ?_, ?_⟩
    · rintro rfl; exact absurd hc2 (by simp [Combiner.privacyIdCount])
    · rintro a b rfl; exact absurd hc2 (by simp [Combiner.sumPerPartition])
  obtain ⟨out, entries, h1, h2, h3, h4, -, -, -, h5⟩ := output_entries_counted B hB p hp cs comb hcomb keep (some ps) col
    (fun q ps' hps => by cases hps; exact hf q) (fun _ => hw) (fun _ => hs)
  refine ⟨out, h1, fun e he => ?_⟩
  obtain ⟨t, n, hn, ht1, ht2⟩ := h5 e he
  let f : (Combiner.compound cs).Acc → ℚ := fun a => Combiner.readAs (Combiner.sumPerPartition lo hi) i h a
  have hcreate : ∀ vs : List ℚ, f ((Combiner.compound cs).create vs) = min (max vs.sum lo) hi :=
    fun vs => readAs_create cs _ i h vs
  have hread : f (t.eval (Combiner.compound cs).merge) = (t.leaves.map f).sum :=
    read_eval cs (Combiner.sumPerPartition lo hi) i h (fun a : ℚ => a) (fun _ _ => rfl) t
  rw [ht2]
  refine hread.trans ?_
  rw [(ht1.map f).sum_eq, List.map_append, List.sum_append, List.map_replicate, List.sum_replicate, hcreate, List.sum_nil,
    List.map_map, nsmul_eq_mul, hn]
  simp only [Function.comp_def, hcreate, Option.getD_some]
  congr 1
  exact entries_sum_users (fun vs : List ℚ => min (max vs.sum lo) hi) (fun a b hab => by rw [hab.sum_eq]) e.1 h2 (h4 hb) h3

/-- **C61.** So for bounds in the right order, SUM of a public partition is exact if and only if 0 is within the bounds. -/
theorem C61_public_sum_exact_iff (B : Backend) (hB : B.Lawful) (p : Params) (hp : p.BoundsValid) (keep : K → ℕ → Bool)
    (ps : List K) (cs : List (Combiner ℚ))
    (comb : List (K × (Combiner.compound cs).Acc) → List (K × (Combiner.compound cs).Acc))
    (hcomb : LawfulCombine (Combiner.compound cs).merge comb) (col : List (P × K × ℚ))
    (hf : p.publicFiltered = true → ∀ r ∈ col, r.2.1 ∈ ps) (hb : p.boundsEnforced = false)
    (hw : WithinPartitionBounds p (relevant (some ps) col))
    (hr : (∃ c ∈ cs, c ≠ Combiner.privacyIdCount ℚ ∧ ∀ a b, c ≠ Combiner.sumPerPartition a b) →
      WithinRowBounds p (relevant (some ps) col))
    (lo hi : ℚ) (hlh : lo ≤ hi) (i : Fin cs.length) (h : cs[i] = Combiner.sumPerPartition lo hi) :
    ∃ out, partitionAccumulators B cs comb keep p (some ps) col = .ok out ∧
      ∀ e ∈ out, e.1 ∈ ps ∧ ((Combiner.readAs _ i h e.2 : ℚ)
        = ((usersIn e.1 (relevant (some ps) col)).map fun u =>
            min (max (cell u e.1 (relevant (some ps) col)).sum lo) hi).sum ↔ lo ≤ 0 ∧ 0 ≤ hi) := by
  obtain ⟨out, h1, h2⟩ := C61_public_listings_add_to_sums B hB p hp keep ps cs comb hcomb col hf hb hw hr lo hi i h
  obtain ⟨out', entries, q1, -, q2, -⟩ := C23_public_partitions_are_the_output B hB p hp cs comb hcomb keep ps col hf
  rw [h1] at q1; cases q1
  refine ⟨out, h1, fun e he => ?_⟩
  have hmem : e.1 ∈ ps := (q2 e.1).mp (List.mem_map_of_mem he)
  refine ⟨hmem, ?_⟩
  have hcount : (0 : ℚ) < ps.count e.1 := by exact_mod_cast List.count_pos_iff.mpr hmem
  rw [h2 e he]
  refine Iff.trans (add_eq_left (M := ℚ)) ?_
  rw [mul_eq_zero]
  constructor
  · rintro (hz | hz)
    · exact absurd hz hcount.ne'
    · constructor
      · by_contra hlo
        rw [not_le] at hlo
        rw [max_eq_right hlo.le, min_eq_left hlh] at hz
        exact hlo.ne' hz
      · by_contra hhi
        rw [not_le] at hhi
        rw [min_eq_right (hhi.le.trans (le_max_left ..))] at hz
        exact hhi.ne hz
  · rintro ⟨a, b⟩
    right
    rw [max_eq_left a, min_eq_left b]

/-- Bounds [1, 5] of the sum per partition and the public partitions 0 and 1: partition 0 has data of one user with sum 2, the number
to which noise is added is 3; partition 1 has no data and gets 1. -/
example : (match partitionAccumulators (localBackend firstRng) [Combiner.sumPerPartition 1 5]
      (localCombine (Combiner.compound [Combiner.sumPerPartition 1 5]).merge) (fun _ _ => true)
      { metrics := [.sum], maxPartitions := some 1, maxPerPartition := some 1, minSum := some 1, maxSum := some 5 }
      (some [0, 1]) [(7, 0, (2 : ℚ))] with
    | .ok out => out.map fun e => (e.1, (show ℚ from e.2.2.1))
    | .error _ => []) = [(0, 3), (1, 1)] := by
  decide +kernel

example := C61_public_sum_exact_iff (P := ℕ) (K := ℕ) (localBackend firstRng) (C39_local_backend_lawful _)
  exactParams exactParams_valid (fun _ _ => true) [10, 20, 30] [Combiner.privacyIdCount ℚ, Combiner.sumPerPartition 1 5]
  (localCombine _) (localCombine_lawful _) exactRows (fun h => absurd h (by decide)) rfl
  (by rw [show relevant (some [10, 20, 30]) exactRows = exactRows from by decide +kernel]; exact exactRows_partitions)
  (fun _ => by rw [show relevant (some [10, 20, 30]) exactRows = exactRows from by decide +kernel]; exact exactRows_rows)
  1 5 (by norm_num) 1 rfl

/-! ### Post-aggregation thresholding -/

/-- **C23.** With post-aggregation thresholding the decision on a public partition is not "always released": every public partition,
and no other one, is decided by PyDP's thresholding for its number of users, 0 if it has none. -/
theorem C23_thresholding_decides_public_partitions {fmt : ℚ → String} {rs rs' : List Request} {b : Built} {s : Specs}
    {ε δ : ℕ → ℝ} {sigma : ℝ → ℝ → ℝ → ℝ} {key : R → K} {value : R → ℚ} {p : Params} {l0 linf : ℕ} (h0 : 1 ≤ l0) (h1 : 1 ≤ linf)
    (hl0 : p.maxPartitions = some l0) (hlinf : p.maxPerPartition = some linf) (hmc : p.maxContributions = none)
    (hbe : p.boundsEnforced = false) (hpt : p.postThresholding = true) (hid : Metric.privacyIdCount ∈ p.metrics)
    (hm : OnlyScalars p) (ps : List K) (hx : build fmt rs (.aggregate p (some ps) key value) = (.ok b, rs'))
    (hbo : BuiltOk s ε δ p.noiseKind b) (env : Env K) (henv : env.Lawful) (pid : R → P) (data : List R)
    (hf : p.publicFiltered = true → ∀ r ∈ data, key r ∈ ps)
    (hw : WithinPartitionBounds p (relevant (some ps) (extract pid key value data)) ∧
      WithinRowBounds p (relevant (some ps) (extract pid key value data))) {L}
    (hL : evalCall sigma s env pid b data (.aggregate p (some ps) key value) = .ok L) :
    (∀ k, k ∈ L.map Candidate.key ↔ k ∈ ps) ∧ ∃ i, ∀ c ∈ L, c.gate = .threshold
      (match p.noiseKind with | .laplace => .laplaceThresholding | .gaussian => .gaussianThresholding) (ε i) (δ i) l0 p.preThreshold
      (usersIn c.key (relevant (some ps) (extract pid key value data))).length := by
  have hp : p.BoundsValid := .inr ⟨l0, linf, h0, h1, hmc, hl0, hlinf⟩
  obtain ⟨⟨rs1, hcreate⟩, hsel⟩ := build_aggregate hx
  have hselN : b.selection = none := by
    have : selectsPrivately p (some ps) = false := by simp [selectsPrivately]
    rw [this] at hsel
    simpa using hsel
  obtain ⟨j, hj⟩ := (part_cases hm.noVectors hcreate).2.2.2 hid hpt
  have key0 : ∀ parts : List Part, (∃ j, Part.thresholding j ∈ parts) →
      ∃ i, Part.thresholding i ∈ parts ∧ ∃ μ : Combiner.AccTuple (combinersOf sigma p parts) → ℕ,
        (∀ a, thresholdPart sigma p parts a = some (i, μ a)) ∧
        (∀ a b, μ (Combiner.mergeTuple _ a b) = μ a + μ b) ∧
        (∀ vs, vs ≠ [] → μ (Combiner.createTuple _ vs) = 1) ∧ μ (Combiner.createTuple _ []) = 0 := by
    intro parts
    induction parts with
    | nil => rintro ⟨j, hj⟩; simp at hj
    | cons part parts ih =>
      intro hex
      by_cases hth : ∃ i, part = .thresholding i
      · obtain ⟨i, rfl⟩ := hth
        refine ⟨i, by simp, fun a => (show ℕ from a.1), fun a => rfl, fun a b => rfl, ?_, rfl⟩
        intro vs hvs
        show (Combiner.privacyIdCount ℚ).create vs = (1 : ℕ)
        cases vs with
        | nil => exact absurd rfl hvs
        | cons v vs => rfl
      · push Not at hth
        obtain ⟨j, hj⟩ := hex
        have hj : Part.thresholding j ∈ parts := by
          rcases List.mem_cons.mp hj with h | h
          · exact absurd h.symm (hth j)
          · exact h
        obtain ⟨i, q1, μ, q2, q3, q4, q5⟩ := ih ⟨j, hj⟩
        refine ⟨i, by simp [q1], fun a => μ a.2, ?_, fun a b => q3 a.2 b.2, fun vs hvs => q4 vs hvs, q5⟩
        intro a
        rw [← q2 a.2]
        cases part with
        | thresholding i => exact absurd rfl (hth i)
        | _ => rfl
  obtain ⟨i, hi, μ, hμ1, hμ2, hμ3, hμ4⟩ := key0 b.parts ⟨j, hj⟩
  have hsp := hbo.parts _ hi i (by simp [Part.specs])
  obtain ⟨out, entries, q1, q2, q3, q4, -, -, q5, q6⟩ := output_entries_keys env.backend henv.backend p hp
    (combinersOf sigma p b.parts) (env.combine (Combiner.compound _).merge) (henv.combine _) (fun _ _ => true) (some ps)
    (extract pid key value data) (by
      intro h ps' hps r hr
      cases hps
      obtain ⟨x, hx, rfl⟩ := List.mem_map.mp hr
      exact hf h x hx) (fun _ => hw.1) (fun _ _ => hw.2)
  have hcount : ∀ e ∈ out, μ e.2.2 = (usersIn e.1 (relevant (some ps) (extract pid key value data))).length := by
    intro e he
    obtain ⟨t, n, -, ht1, ht2⟩ := q6 e he
    have hlen := (users_perm q2 (q4 hbe) q3 e.1).length_eq
    rw [List.length_map] at hlen
    rw [ht2]
    have := eval_hom (Combiner.compound (combinersOf sigma p b.parts)).merge (fun a => μ a.2) (fun x y => hμ2 x.2 y.2) t
    refine this.trans ?_
    rw [(ht1.map _).sum_eq, List.map_append, List.sum_append, List.map_replicate, List.map_map, ← hlen]
    have hz : ∀ m : ℕ, (List.replicate m (μ (Combiner.createTuple (combinersOf sigma p b.parts) []))).sum = 0 := by
      intro m; rw [hμ4, List.sum_replicate, smul_zero]
    refine (congrArg _ (hz n)).trans ?_
    rw [add_zero]
    rw [List.map_congr_left (g := fun _ => 1)]
    · simp
    · intro x hx
      exact hμ3 _ (q3 x (List.mem_filter.mp hx).1)
  have hgate : ∀ e ∈ out, gateOf sigma s p b e.2 = .ok (.threshold
      (match p.noiseKind with | .laplace => .laplaceThresholding | .gaussian => .gaussianThresholding) (ε i) (δ i) l0 p.preThreshold
      (usersIn e.1 (relevant (some ps) (extract pid key value data))).length) := by
    intro e he
    have hl : (0 : ℝ) < l0 := by exact_mod_cast h0
    have hsens : sensPrivacyIdCount p = .ok ⟨some (l0 : ℝ), some 1, some (l1Sens l0 1), some (l2Sens l0 1)⟩ := by
      simp [sensPrivacyIdCount, hmc, hl0, mkSens, positiveOrNone, hl]
    simp only [gateOf, hselN, hpt, if_true, hμ1, thresholdGate, hsens, hsp.eq, Part.mechanism, hcount e he]
    cases hk : p.noiseKind <;> rfl
  simp only [evalCall, q1] at hL
  obtain ⟨hlen, hall⟩ : L.map Candidate.key = out.map Prod.fst ∧ ∀ c ∈ L, ∃ e ∈ out, candidate sigma s p b e = .ok c := by
    clear q1 q5 q6 hcount hgate
    induction out generalizing L with
    | nil =>
      simp only [List.mapM_nil, pure, Except.pure, Except.ok.injEq] at hL
      subst hL; simp
    | cons e out ih =>
      rw [List.mapM_cons] at hL
      cases hc : candidate sigma s p b e with
      | error x => rw [hc] at hL; cases hL
      | ok c =>
        cases hr : out.mapM (candidate sigma s p b) with
        | error x => rw [hc, hr] at hL; cases hL
        | ok L' =>
          rw [hc, hr] at hL
          cases hL
          obtain ⟨i1, i2⟩ := ih hr
          have hkey : c.key = e.1 := by
            unfold candidate at hc
            split at hc <;> cases hc
            rfl
          refine ⟨by simp [hkey, i1], ?_⟩
          intro c' hc'
          rcases List.mem_cons.mp hc' with rfl | hc'
          · exact ⟨e, by simp, hc⟩
          · obtain ⟨e', he', h⟩ := i2 c' hc'
            exact ⟨e', by simp [he'], h⟩
  refine ⟨?_, i, ?_⟩
  · intro k
    rw [hlen, q5 (fun _ _ => rfl) k]
    constructor
    · rintro (⟨x, hx, rfl⟩ | ⟨ps', h, hk⟩)
      · have hne := q3 x hx
        obtain ⟨v, hv⟩ := List.exists_mem_of_ne_nil _ hne
        have hmem : (x.1.1, x.1.2, v) ∈ rowsBehind entries := by
          unfold rowsBehind
          exact List.mem_flatMap.mpr ⟨x, hx, List.mem_map.mpr ⟨v, hv, rfl⟩⟩
        have := q2.subset hmem
        simpa [relevant] using (List.mem_filter.mp this).2
      · cases h; exact hk
    · intro hk
      exact .inr ⟨ps, rfl, hk⟩
  · intro c hc
    obtain ⟨e, he, hcand⟩ := hall c hc
    unfold candidate at hcand
    rw [hgate e he] at hcand
    split at hcand
    · rename_i g l hg hl
      cases hg
      cases hcand
      rfl
    · rename_i x hx; cases hx
    · cases hcand

/-- PRIVACY_ID_COUNT with post-aggregation thresholding. -/
def thresholdedIds : Raw :=
  { metrics := some [.privacyIdCount], maxPartitions := some (.int 1), maxPerPartition := some (.int 1), postThresholding := true }

/-- One user, in partition 10; the public partitions 10 and 30 are decided by the thresholding for 1 and for 0 users. -/
example (sigma : ℝ → ℝ → ℝ → ℝ) (env : Env ℕ) (henv : env.Lawful) : ∃ b rs' L,
    build (fun _ => "") [] (.aggregate (thresholdedIds.arguments { metrics := [] }) (some [10, 30])
      (fun r : ℕ × ℕ × ℚ => r.2.1) (fun r => r.2.2)) = (.ok b, rs') ∧
    evalCall sigma (fun _ => ⟨.laplaceThresholding, none, some 1, some 1⟩) env (fun r => r.1) b [(1, 10, 3)]
      (.aggregate (thresholdedIds.arguments { metrics := [] }) (some [10, 30]) (fun r => r.2.1) (fun r => r.2.2)) = .ok L ∧
    (∀ k, k ∈ L.map Candidate.key ↔ k ∈ [10, 30]) ∧
    ∀ c ∈ L, c.gate = .threshold .laplaceThresholding 1 1 1 none (if c.key = 10 then 1 else 0) := by
  have hm : OnlyScalars (thresholdedIds.arguments { metrics := [] }) := by
    intro m hm
    simp only [thresholdedIds, Raw.arguments, Option.getD_some, List.mem_cons, List.not_mem_nil, or_false] at hm
    subst hm; simp
  have hbo : BuiltOk (fun _ => ⟨.laplaceThresholding, none, some 1, some 1⟩) (fun _ => 1) (fun _ => 1)
      thresholdedIds.noiseKind ⟨[.thresholding 0], none⟩ := by
    refine ⟨?_, by simp, by decide⟩
    intro part hp i hi
    obtain rfl := List.mem_singleton.mp hp
    exact ⟨rfl, by norm_num, by norm_num, fun _ => by norm_num⟩
  have hrel : relevant (some [10, 30]) (extract (fun r : ℕ × ℕ × ℚ => r.1) (fun r => r.2.1) (fun r => r.2.2) [(1, 10, 3)])
      = [(1, 10, 3)] := by decide +kernel
  obtain ⟨L, hL⟩ := C83_evaluable_calls_run (fmt := fun _ => "") (rs := []) (sigma := sigma) (pub := some [10, 30])
    (key := fun r : ℕ × ℕ × ℚ => r.2.1) (value := fun r => r.2.2) thresholdedIds rfl rfl { metrics := [] } hm rfl hbo
    ⟨by simp [thresholdedIds, Raw.arguments], by simp [thresholdedIds, Raw.arguments], by simp [thresholdedIds, Raw.arguments]⟩
    env henv (fun r => r.1) [(1, 10, 3)]
  obtain ⟨q1, i, q2⟩ := C23_thresholding_decides_public_partitions (fmt := fun _ => "") (rs := []) (l0 := 1) (linf := 1)
    (le_refl _) (le_refl _) rfl rfl rfl rfl rfl (by simp [thresholdedIds, Raw.arguments]) hm [10, 30] rfl hbo env henv
    (fun r : ℕ × ℕ × ℚ => r.1) [(1, 10, 3)] (fun h => absurd h (by decide)) (by
      rw [hrel]
      refine ⟨fun u => ⟨fun m hm => (nomatch hm), fun _ l0 hl => ?_⟩, fun u k linf hl => ?_⟩
      · obtain rfl : 1 = l0 := by simpa [thresholdedIds, Raw.arguments, Validation.IntArg.toNat?] using hl
        unfold partitionsOf
        by_cases h : 1 = u <;> simp [h]
      · obtain rfl : 1 = linf := by simpa [thresholdedIds, Raw.arguments, Validation.IntArg.toNat?] using hl
        unfold cell
        rw [List.length_map]
        exact List.length_filter_le _ _) hL
  refine ⟨_, _, L, rfl, hL, q1, fun c hc => ?_⟩
  rw [q2 c hc, hrel]
  have : (usersIn c.key [((1 : ℕ), (10 : ℕ), (3 : ℚ))]).length = if c.key = 10 then 1 else 0 := by
    unfold usersIn
    by_cases h : c.key = 10
    · simp [h]
    · have : ¬ 10 = c.key := fun h' => h h'.symm
      simp [h, this]
  rw [this, Nat.cast_one]
  rfl

end PDP.EndToEnd
