import Verif.EndToEnd.CallAggregate

/-! # One `select_partitions` call on neighbouring datasets -/

set_option linter.unusedSectionVars false

namespace PDP.EndToEnd

open PDP PDP.Engine MeasureTheory
open PDP.Engine.Mechanism (computed)
open PDP.Engine.AddNoise (specOf)
open PDP.Budget (State Op MechType)
open PDP.Approx (Indist)
open PDP.Private (SelectParams)

variable {R P K : Type} [DecidableEq P] [DecidableEq K]

theorem valuesOf_pairs {X : Type} (f : P × K → X) (pairs : List (P × K)) (k : K) :
    (valuesOf k (pairs.map fun e => (e.2, f e))).length = (pairs.map Prod.snd).count k := by
  rw [valuesOf_length, List.map_map]; rfl

theorem count_split (pairs : List (P × K)) (u : P) (k : K) :
    (pairs.map Prod.snd).count k = ((pairs.filter fun e => e.1 ≠ u).map Prod.snd).count k
      + ((pairs.filter fun e => e.1 = u).map Prod.snd).count k := by
  induction pairs with
  | nil => simp
  | cons e pairs ih =>
    by_cases h : e.1 = u
    · rw [List.filter_cons_of_neg (by simp [h]), List.filter_cons_of_pos (by simp [h])]
      simp only [List.map_cons, List.count_cons]
      omega
    · rw [List.filter_cons_of_pos (by simp [h]), List.filter_cons_of_neg (by simp [h])]
      simp only [List.map_cons, List.count_cons]
      omega

theorem nodup_of_user {pairs : List (P × K)} (h : pairs.Nodup) (u : P) :
    ((pairs.filter fun e => e.1 = u).map Prod.snd).Nodup := by
  refine (h.filter _).map_on ?_
  intro x hx y hy hxy
  have h1 : x.1 = u := by simpa using (List.mem_filter.mp hx).2
  have h2 : y.1 = u := by simpa using (List.mem_filter.mp hy).2
  exact Prod.ext (h1.trans h2.symm) hxy

/-- A call without numbers. -/
theorem gate_pair {lib : Library} {c c' : List (Candidate K)} {ge gd : ℝ} (hgd : 0 ≤ gd) (hg : GateClose lib c c' ge gd)
    (hc : ∀ x ∈ c, x.numbers = []) (hc' : ∀ x ∈ c', x.numbers = []) : ∃ q : Pair lib c c', q.e = ge ∧ q.d = gd := by
  have key : ∀ c : List (Candidate K), (∀ x ∈ c, x.numbers = []) → ∀ k l, numberLaw c k l = Measure.dirac 0 := by
    intro c hc k l
    unfold numberLaw
    cases h : c.find? fun x => x.key = k with
    | none => rfl
    | some x => simp [hc x (List.mem_of_find?_eq_some h)]
  refine ⟨{ gate := _, gate' := _, ge := ge, gd := gd, labels := [], val := fun _ _ => Measure.dirac 0,
            val' := fun _ _ => Measure.dirac 0, ve := fun _ => 0, vd := fun _ => 0,
            gate_eq := fun k => rfl, gate_eq' := fun k => rfl, prob := hg.prob, prob' := hg.prob', nodup := List.nodup_nil,
            val_eq := fun k l _ => by simp [key c hc], val_eq' := fun k l _ => by simp [key c' hc'],
            val_prob := fun _ _ => inferInstance, val_prob' := fun _ _ => inferInstance, gd_nonneg := hgd,
            vd_nonneg := fun _ => le_rfl, close := hg.close, close' := hg.close', val_close := fun l hl => by simp at hl,
            val_close' := fun l hl => by simp at hl }, ?_, ?_⟩
  · simp [Pair.e]
  · simp [Pair.d]

/-- **One `select_partitions` call.** -/
theorem select_call {lib : Library} (hlib : lib.Contract) {s : Specs} {ε δ : ℕ → ℝ} {p : SelectParams} {kind : NoiseKind}
    (hl : 1 ≤ p.maxPartitions) {fmt : ℚ → String} {rs rs' : List Request} {b : Built} {key : R → K}
    (hb : build fmt rs (.select p key) = (.ok b, rs')) (hbo : BuiltOk s ε δ kind b)
    (env : Env K) (henv : env.Lawful) (pid : R → P) (data : List R) (u : P) :
    ∃ c c', evalCall lib.sigma s env pid b data (.select p key) = .ok c ∧
      evalCall lib.sigma s env pid b (removeId pid u data) (.select p key) = .ok c' ∧
      ∃ q : Pair lib c c', q.e ≤ (b.specs.map ε).sum ∧ q.d ≤ (b.specs.map δ).sum := by
  simp only [build, Prod.mk.injEq, Except.ok.injEq] at hb
  obtain ⟨rfl, -⟩ := hb
  generalize hi : (requestBudget rs Engine.Mechanism.generic 1).1 = i at hbo ⊢
  have hsi := hbo.selection i rfl
  have hδ := hsi.pos (by simp)
  obtain ⟨hF, hdp⟩ := selection_law hlib.selection p.strategy p.preThreshold hsi.eps hδ hl
  let G : K × (Combiner.compound ([] : List (Combiner Unit))).Acc → Gate := fun e =>
    .select p.strategy (ε i) (δ i) p.maxPartitions p.preThreshold (divideAndRoundUp (Combiner.rowCount e.2) 1)
  have heval : ∀ d : List R, evalCall lib.sigma s env pid ⟨[], some i⟩ d (.select p key)
      = .ok ((selectAccumulators env.backend (env.combine (Combiner.compound _).merge) p.maxPartitions
        (d.map fun r => (pid r, key r))).map fun e => (⟨e.1, G e, []⟩ : Candidate K)) := by
    intro d
    simp only [evalCall]
    apply mapM_ok'
    intro e _
    simp only [selectGate, hsi.eq, computed]
    rfl
  have hrem : (removeId pid u data).map (fun r => (pid r, key r))
      = (data.map fun r => (pid r, key r)).filter fun e => e.1 ≠ u := by
    unfold removeId
    rw [List.filter_map]; rfl
  refine ⟨_, _, heval data, heval _, ?_⟩
  rw [hrem]
  generalize (data.map fun r => (pid r, key r)) = col
  obtain ⟨h1, -, h3⟩ := boundedPairs_spec env.backend henv.backend p.maxPartitions hl col
  unfold selectAccumulators
  rw [boundedPairs_without env.backend henv.keyLocal p.maxPartitions col u]
  generalize hpairs : (env.backend.groupByKey col).flatMap (sampleUnique env.backend p.maxPartitions) = pairs at h1 h3 ⊢
  have hlaw : ∀ q : List (P × K), ∀ e ∈ env.combine (Combiner.compound ([] : List (Combiner Unit))).merge
      (q.map fun e => (e.2, (Combiner.compound ([] : List (Combiner Unit))).create [])), (G e).law lib
        = (coin (lib.keep p.strategy (ε i) (δ i) p.maxPartitions p.preThreshold (divideAndRoundUp (valuesOf e.1
          (q.map fun e => (e.2, (Combiner.compound ([] : List (Combiner Unit))).create []))).length 1))).map
            fun b => (b, (0 : ℝ)) := by
    intro q e he
    have := rowCount_combined _ _ _ (henv.combine _ (q.map fun e =>
      (e.2, (Combiner.compound ([] : List (Combiner Unit))).create []))) (by
        intro e he
        obtain ⟨x, -, rfl⟩ := List.mem_map.mp he
        rfl) e he
    simp only [G, this]
    rfl
  have hg := gate_private (lib := lib) (henv.combine (Combiner.compound ([] : List (Combiner Unit))).merge
      (pairs.map fun e => (e.2, (Combiner.compound ([] : List (Combiner Unit))).create [])))
    (henv.combine (Combiner.compound ([] : List (Combiner Unit))).merge
      ((pairs.filter fun e => e.1 ≠ u).map fun e => (e.2, (Combiner.compound ([] : List (Combiner Unit))).create [])))
    hF hdp ((pairs.filter fun e => e.1 = u).map fun e => (e.2, ())) le_rfl
    (by
      intro k
      rw [valuesOf_pairs, valuesOf_pairs, valuesOf_pairs]
      exact count_split pairs u k)
    (by
      rw [List.map_map]
      refine (List.dedup_sublist _).length_le.trans ?_
      rw [List.length_map, h3 u]
      exact min_le_left _ _)
    (by
      intro k
      rw [valuesOf_pairs]
      exact List.nodup_iff_count_le_one.mp (nodup_of_user h1 u) k)
    G (fun _ => []) (hlaw pairs) (hlaw _)
  obtain ⟨q, hq1, hq2⟩ := gate_pair hδ.le hg (by
      intro x hx
      obtain ⟨e, -, rfl⟩ := List.mem_map.mp hx
      rfl) (by
      intro x hx
      obtain ⟨e, -, rfl⟩ := List.mem_map.mp hx
      rfl)
  exact ⟨q, by rw [hq1]; simp [Built.specs], by rw [hq2]; simp [Built.specs]⟩

end PDP.EndToEnd
