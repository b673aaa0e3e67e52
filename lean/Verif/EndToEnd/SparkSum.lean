import Verif.Backend.SparkRows
import Verif.EndToEnd.Documented

/-!
# The exact sum of a pipeline on Spark, for the dataset of `SparkRows.lean`
-/

set_option linter.unusedVariables false

namespace PDP.EndToEnd

open PDP PDP.Engine PDP.Backend
open PDP.Engine.Mechanism (Additive)

/-- SUM of the values, between 0 and 1, with at most one value of every user. -/
def lastParams : Params where
  metrics := [.sum]
  maxPartitions := some 1
  maxPerPartition := some 1
  minValue := some 0
  maxValue := some 1

/-- All rows in one public partition; rows are a user and a value. -/
def lastQuery : Query (ℕ × ℚ) Unit where
  params := lastParams
  partitions := [()]
  key := fun _ => ()
  value := Prod.snd

theorem lastParams_supported : Supported lastParams := by
  refine ⟨?_, rfl, by simp [lastParams], by simp [lastParams], rfl, by simp [lastParams], ?_, by simp [lastParams],
    by simp [lastParams]⟩
  · simp [Params.BoundsValid, lastParams]
  · intro _ _ _
    left
    exact ⟨0, 1, rfl, rfl, by norm_num, by norm_num, rfl⟩

/-- Spark with rows in blocks of `c`. -/
def sparkEnv {K : Type} [DecidableEq K] (rng : SparkRng) (other : Rng) (c : ℕ) : Env K :=
  ⟨sparkBackend rng other c, fun merge => sparkCombine c merge⟩

/-- The users 1, …, `m` with `2 c` rows each. -/
def crowd (c m : ℕ) : List (ℕ × ℚ) := (List.range m).flatMap fun i => userRows c (i + 1)

/-- The same with one row of the user 0. -/
def crowdAndOne (c m : ℕ) : List (ℕ × ℚ) := (0, 0) :: crowd c m

theorem plan_last (fmt : ℚ → String) : ∃ ops, plan fmt [] [lastQuery] = .ok ([[.sum 0]], ops) := ⟨_, rfl⟩

/-! ### The exact sum -/

theorem perm_of_sampling {K V : Type} [DecidableEq K] {n : ℕ} (hn : 1 ≤ n) {col : List (K × V)} {out : List (K × List V)}
    (h : IsSampling n col out) (hk : (col.map Prod.fst).Nodup) : (ungroup out).Perm col := by
  have hv : ∀ k, (valuesOf k col).length ≤ 1 := by
    intro k
    clear h
    induction col with
    | nil => simp
    | cons e col ih =>
      rw [List.map_cons, List.nodup_cons] at hk
      rw [valuesOf_cons]
      split
      · rename_i he
        have : valuesOf k col = [] := by
          by_contra hne
          exact hk.1 (he ▸ valuesOf_ne_nil.mp hne)
        simp [this]
      · exact ih hk.2
  refine IsGrouping.perm ⟨h.nodup, h.keys, fun e he => ?_⟩
  refine (h.values e he).perm_of_length_le ?_
  rw [h.length e he]
  exact le_min ((hv _).trans hn) le_rfl

theorem valuesOf_unit {V : Type} (col : List (Unit × V)) : valuesOf () col = col.map Prod.snd := by
  unfold valuesOf
  rw [List.filter_eq_self.mpr]
  intro e _; simp

/-- The sum over the samples of the users. -/
theorem bounded_sum (B : Backend) (hB : B.Lawful) {A : Type} (agg : List ℚ → A) (f : A → ℚ) (col : List (ℕ × Unit × ℚ)) :
    ((boundCrossAndPer B 1 1 agg col).map fun e => f e.2).sum
      = ((B.sampleFixedPerKey "Sample per (privacy_id, partition_key)" (col.map fun r => ((r.1, r.2.1), r.2.2)) 1).map
          fun e => f (agg e.2)).sum := by
  have h1 := hB.sample "Sample per (privacy_id, partition_key)" (col.map fun r => ((r.1, r.2.1), r.2.2)) 1 le_rfl
  unfold boundCrossAndPer
  dsimp only
  generalize B.sampleFixedPerKey "Sample per (privacy_id, partition_key)" (col.map fun r => ((r.1, r.2.1), r.2.2)) 1 = s1
    at h1 ⊢
  rw [List.map_map]
  set c4 := s1.map ((fun e : (ℕ × Unit) × A => (e.1.1, (e.1.2, e.2))) ∘ fun e => (e.1, agg e.2)) with hc4
  have hk : (c4.map Prod.fst).Nodup := by
    have : c4.map Prod.fst = (s1.map Prod.fst).map Prod.fst := by rw [hc4, List.map_map, List.map_map]; rfl
    rw [this]
    refine List.Nodup.map ?_ h1.nodup
    intro a b hab
    exact Prod.ext hab rfl
  have h2 := perm_of_sampling le_rfl (hB.sample "Sample per privacy_id" c4 1 le_rfl) hk
  have h3 : ((B.sampleFixedPerKey "Sample per privacy_id" c4 1).flatMap fun e => e.2.map fun x => ((e.1, x.1), x.2))
      = (ungroup (B.sampleFixedPerKey "Sample per privacy_id" c4 1)).map fun y => ((y.1, y.2.1), y.2.2) := by
    rw [ungroup, List.map_flatMap]
    congr 1
    funext e
    rw [List.map_map]; rfl
  rw [h3, List.map_map, (h2.map _).sum_eq, hc4, List.map_map]
  rfl

theorem evalQuery_of {R P K : Type} [DecidableEq P] [DecidableEq K] {q : Query R K} (sigma : ℝ → ℝ → ℝ → ℝ) (s : Specs)
    (env : Env K) (pid : R → P) (parts : List Part) (data : List R) {out l}
    (h1 : partitionAccumulators env.backend (combinersOf sigma q.params parts) (env.combine (Combiner.compound _).merge)
      (fun _ _ => true) q.params (some q.partitions) (q.rows pid data) = .ok out)
    (h2 : (out.mapM fun e => evalParts sigma s q.params e.1 parts e.2.2) = .ok l) :
    evalQuery sigma s env pid q parts data = .ok l.flatten := by
  unfold evalQuery
  rw [h1]
  dsimp only
  rw [h2]

/-- What is released: one number, the sum over the samples of the users. -/
theorem eval_last (sigma : ℝ → ℝ → ℝ → ℝ) (s : Specs) {ε δ : ℝ} (hε : 0 < ε)
    (hs : s 0 = ⟨.laplace, none, some ε, some δ⟩) :
    ∃ b y : ℝ, 0 < b ∧ ∀ (env : Env Unit) (hB : env.backend.Lawful)
        (hC : ∀ {A : Type} (merge : A → A → A), LawfulCombine merge (env.combine merge)) (data : List (ℕ × ℚ)), evalAll sigma s (fun _ => env) Prod.fst data 0 [lastQuery] [[.sum 0]]
      = .ok [⟨(), 0, 0, ((env.backend.sampleFixedPerKey "Sample per (privacy_id, partition_key)"
          (data.map fun r => ((r.1, ()), r.2)) 1).map fun e => (e.2.map (clip 0 1)).sum).sum, .laplace b y⟩] := by
  obtain ⟨sn, q1, q2, -⟩ := sensSum_val lastParams_supported.bounds (lo := 0) (hi := 1) rfl rfl (by norm_num)
  have hy : (rowChange lastParams (max |0| |1|)).1 = 1 := by simp [rowChange, lastParams]
  rw [hy] at q2
  refine ⟨1 / ε, 1, by positivity, fun env hB hC data => ?_⟩
  set cs := combinersOf sigma lastParams [.sum 0] with hcs
  set rows := lastQuery.rows Prod.fst data with hrows
  have hdrop : dropPartitions lastParams (some [()]) rows = rows := by
    unfold dropPartitions
    dsimp only
    rw [if_neg (by simp [lastParams]), List.filter_eq_self]
    intro r _; simp
  set acc := (boundCrossAndPer env.backend 1 1 (Combiner.compound cs).create rows).map (fun e => (e.1.2, e.2))
    ++ [((), (Combiner.compound cs).create [])] with hacc
  have hview : view sigma lastParams (.sum 0) = ⟨Combiner.sumPerValue 0 1,
      [⟨0, 0, additive sigma (sensSum lastParams), fun a : ℚ => a⟩]⟩ := rfl
  have hsamp : (Combiner.compound cs).sampling = true := rfl
  have ha : accumulators env.backend lastParams (Combiner.compound cs).sampling (Combiner.compound cs).create (some [()]) rows
      = .ok acc := by
    unfold accumulators dataAccumulators
    rw [hdrop]
    rfl
  have h1 : partitionAccumulators env.backend cs (env.combine (Combiner.compound cs).merge) (fun _ _ => true) lastParams
      (some [()]) rows = .ok (env.combine (Combiner.compound cs).merge acc) := by
    unfold partitionAccumulators
    rw [ha]
    rfl
  have hcomb := hC (Combiner.compound cs).merge acc
  -- one partition
  obtain ⟨a, hout⟩ : ∃ a, env.combine (Combiner.compound cs).merge acc = [((), a)] := by
    have k1 := hcomb.nodup
    have k2 := (hcomb.keys ()).mpr (by rw [hacc]; simp)
    generalize env.combine (Combiner.compound cs).merge acc = o at k1 k2
    rcases o with _ | ⟨x, l⟩
    · simp at k2
    · rcases l with _ | ⟨z, l⟩
      · exact ⟨x.2, rfl⟩
      · simp at k1
  let f : (Combiner.compound cs).Acc → ℚ := fun a => a.2.1
  have hval : f a = ((env.backend.sampleFixedPerKey "Sample per (privacy_id, partition_key)"
          (data.map fun r => ((r.1, ()), r.2)) 1).map fun e => (e.2.map (clip 0 1)).sum).sum := by
    have := read_out hcomb f (fun x y => rfl) ((), a) (by rw [hout]; simp)
    rw [this, partitionTotal, valuesOf_unit, hacc, List.map_append, List.map_append, List.sum_append, List.map_map, List.map_map]
    have e1 : ((boundCrossAndPer env.backend 1 1 (Combiner.compound cs).create rows).map
        ((f ∘ Prod.snd) ∘ fun e => (e.1.2, e.2))).sum = _ := bounded_sum env.backend hB (Combiner.compound cs).create f rows
    have e0 : f ((Combiner.compound cs).create []) = 0 := rfl
    have e2 : (([((), (Combiner.compound cs).create [])].map Prod.snd).map f).sum = 0 := by
      rw [List.map_singleton, List.map_singleton, List.sum_singleton, e0]
    rw [e1, e2, add_zero, hrows, Query.rows, List.map_map]
    rfl
  have hmech : additive sigma (sensSum lastParams) (s 0) = .ok (.laplace (1 / ε) 1) := by
    rw [hs, additive_laplace sigma q1 q2]
  have hev : evalParts sigma s lastParams () [.sum 0] a.2
      = .ok [⟨(), 0, 0, f a, .laplace (1 / ε) 1⟩] := by
    have this : flat sigma lastParams [.sum 0]
      = [(share (.sum 0), ⟨0, 0, additive sigma (sensSum lastParams), fun a => a.1⟩)] := rfl
    rw [evalParts_eq sigma s lastParams () [.sum 0] a.2 (by
      intro x hx
      rw [this, List.mem_singleton] at hx
      subst hx
      exact ⟨_, hmech⟩)]
    rw [this, List.map_singleton]
    simp only [getMech, hmech]
    rfl
  have hq : evalQuery sigma s env Prod.fst lastQuery [.sum 0] data = .ok [⟨(), 0, 0, f a, .laplace (1 / ε) 1⟩] := by
    refine evalQuery_of (q := lastQuery) sigma s env Prod.fst [.sum 0] data (out := [((), a)]) ?_ (l := [[⟨(), 0, 0, f a, .laplace (1 / ε) 1⟩]]) ?_
    · exact h1.trans (congrArg Except.ok hout)
    · rw [List.mapM_cons, List.mapM_nil]
      exact congrArg (fun x => x >>= fun y => pure [y]) hev
  unfold evalAll
  rw [hq, ← hval]
  rfl

/-! ### The samples on Spark -/

theorem spark_sum (rng : SparkRng) (c : ℕ) (stage : String) {K : Type} [DecidableEq K] (col : List (K × ℚ)) (g : K → ℚ)
    (h : ∀ k ∈ col.map Prod.fst, ∃ t, sparkTree (blocks c col) k = some t ∧ sampleTree (rng.pick stage k) 1 [] t = [g k]) {us : List K}
    (hu : us.Nodup) (hk : ∀ k, k ∈ us ↔ k ∈ col.map Prod.fst) :
    ((sparkSample rng c stage col 1).map fun e => (e.2.map (clip 0 1)).sum).sum = (us.map fun k => clip 0 1 (g k)).sum := by
  have h1 : sparkSample rng c stage col 1 = (dictGroup col).map fun e => (e.1, [g e.1]) := by
    unfold sparkSample
    apply filterMap_of_some
    intro e he
    obtain ⟨t, h1, h2⟩ := h e.1 ((dictGroup_keys col e.1).mp (List.mem_map.mpr ⟨e, he, rfl⟩))
    rw [h1, Option.map_some, h2]
  rw [h1, List.map_map]
  have h2 : ((dictGroup col).map Prod.fst).Perm us :=
    (List.perm_ext_iff_of_nodup (dictGroup_nodup col) hu).mpr fun k => by rw [dictGroup_keys, hk]
  have h3 : (dictGroup col).map ((fun e : K × List ℚ => (e.2.map (clip 0 1)).sum) ∘ fun e => (e.1, [g e.1]))
      = ((dictGroup col).map Prod.fst).map fun k => clip 0 1 (g k) := by
    rw [List.map_map]
    apply List.map_congr_left
    intro e _
    simp
  rw [h3, (h2.map _).sum_eq]

/-- The users as keys. -/
def crowdKeys (m : ℕ) : List (ℕ × Unit) := (List.range m).map fun i => (i + 1, ())

theorem crowdKeys_nodup (m : ℕ) : (crowdKeys m).Nodup :=
  List.nodup_range.map fun a b h => by simpa using h

theorem crowd_keyed (c m : ℕ) : (crowd c m).map (fun r => ((r.1, ()), r.2)) = (crowdKeys m).flatMap (userRows c) := by
  rw [crowd, crowdKeys, List.map_flatMap, List.flatMap_map]
  congr 1
  funext i
  simp [userRows]

theorem keys_users {K : Type} [DecidableEq K] (c : ℕ) (us : List K) (k : K) :
    k ∈ (us.flatMap (userRows c)).map Prod.fst ↔ k ∈ us := by
  simp only [List.mem_map, List.mem_flatMap]
  constructor
  · rintro ⟨x, ⟨u, hu, hx⟩, rfl⟩
    rw [mem_userRows hx]; exact hu
  · intro h
    exact ⟨(k, 1), ⟨k, h, by simp [userRows]⟩, rfl⟩

theorem clip_bit (p : Prop) [Decidable p] : clip 0 1 (if p then 1 else 0) = ((if p then 1 else 0 : ℕ) : ℚ) := by
  split <;> simp [clip]

theorem sum_users (m : ℕ) (g : ℕ × Unit → ℕ) : ((crowdKeys m).map fun k => ((g k : ℕ) : ℚ)).sum
    = ((∑ i : Fin m, g (i + 1, ()) : ℕ) : ℚ) := by
  rw [crowdKeys, List.map_map, Nat.cast_sum, Fin.sum_univ_eq_sum_range (fun i => ((g (i + 1, ()) : ℕ) : ℚ)) m]
  rfl

/-- The stage in which at most one value of every user is kept. -/
def keepStage : String := "Sample per (privacy_id, partition_key)"

/-- Without the additional row: the users for whom two choices take the second list. -/
theorem sum_crowd (rng : SparkRng) {c : ℕ} (hc : 2 ≤ c) (m : ℕ) :
    ((sparkSample rng c keepStage ((crowd c m).map fun r => ((r.1, ()), r.2)) 1).map fun e => (e.2.map (clip 0 1)).sum).sum
      = ((∑ i : Fin m, (if TakesSecond (rng.pick keepStage ((i : ℕ) + 1, ())) [] ∧
          TakesSecond (rng.pick keepStage ((i : ℕ) + 1, ())) [true] then 1 else 0) : ℕ) : ℚ) := by
  rw [crowd_keyed, spark_sum rng c keepStage _ (fun k => if TakesSecond (rng.pick keepStage k) [] ∧
    TakesSecond (rng.pick keepStage k) [true] then 1 else 0) ?_ (crowdKeys_nodup m) (fun k => (keys_users c _ k).symm)]
  · simp only [clip_bit]
    exact sum_users m fun k => if TakesSecond (rng.pick keepStage k) [] ∧ TakesSecond (rng.pick keepStage k) [true] then 1 else 0
  · intro k hk
    exact sample_aligned rng keepStage hc (crowdKeys_nodup m) ((keys_users c _ k).mp hk) k

/-- With the additional row: the users for whom one choice takes the second list. -/
theorem sum_crowdAndOne (rng : SparkRng) {c : ℕ} (hc : 2 ≤ c) (m : ℕ) :
    ((sparkSample rng c keepStage ((crowdAndOne c m).map fun r => ((r.1, ()), r.2)) 1).map fun e => (e.2.map (clip 0 1)).sum).sum
      = ((∑ i : Fin m, (if TakesSecond (rng.pick keepStage ((i : ℕ) + 1, ())) [] then 1 else 0) : ℕ) : ℚ) := by
  have h0 : (0, ()) ∉ crowdKeys m := by simp [crowdKeys]
  rw [crowdAndOne, List.map_cons, crowd_keyed, spark_sum rng c keepStage _
    (fun k => if TakesSecond (rng.pick keepStage k) [] ∧ k ≠ (0, ()) then 1 else 0) ?_ (us := (0, ()) :: crowdKeys m)
    (List.nodup_cons.mpr ⟨h0, crowdKeys_nodup m⟩) ?_]
  · simp only [clip_bit]
    rw [List.map_cons, List.sum_cons, if_neg (by simp), Nat.cast_zero, zero_add, sum_users m fun k =>
      if TakesSecond (rng.pick keepStage k) [] ∧ k ≠ (0, ()) then 1 else 0]
    congr 1
    apply Finset.sum_congr rfl
    intro i _
    simp
  · intro k hk
    rw [List.map_cons, List.mem_cons, keys_users] at hk
    by_cases h : k = (0, ())
    · subst h
      obtain ⟨t, h1, h2⟩ := sample_additional rng keepStage hc ((0, ()), 0) h0 ((0, ()) : ℕ × Unit)
      exact ⟨t, h1, by rw [h2]; simp⟩
    · obtain ⟨t, h1, h2⟩ := sample_shifted rng keepStage hc (crowdKeys_nodup m) (hk.resolve_left h) ((0, ()), 0)
        (fun e => h e.symm) k
      exact ⟨t, h1, by rw [h2]; simp [h]⟩
  · intro k
    rw [List.map_cons, List.mem_cons, List.mem_cons, keys_users]

end PDP.EndToEnd
