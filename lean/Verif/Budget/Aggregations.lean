import Verif.Budget.Scopes

/-!
# Aggregation restrictions and announced budgets (C05)

`DPEngine.aggregate` / `select_partitions` wrap all their `request_budget` calls in one scope with the
aggregation's budget weight and then ask for the budget to annotate stages with
(`dp_engine.py:94-107`, `:269-285`, `budget_accounting.py:189-247`).
-/

namespace PDP.Budget

/-- Weights of the aggregations of a history, in order. -/
def aggWeights : List Op → List ℚ
  | [] => []
  | .aggregation w :: ops => w :: aggWeights ops
  | _ :: ops => aggWeights ops

theorem actualWeights_step (s : State) (op : Op) :
    (step s op).1.actualWeights = s.actualWeights ++ aggWeights [op] ∧
    (step s op).1.expectedNum = s.expectedNum ∧
    (step s op).1.expectedWeights = s.expectedWeights := by
  cases op with
  | request t sens w c n =>
    simp only [step, requestBudget]
    split_ifs <;> simp [register, aggWeights]
  | enter w => simp [step, enterScope, aggWeights]
  | exit =>
    have : (exitScope s).1.actualWeights = s.actualWeights ∧
        (exitScope s).1.expectedNum = s.expectedNum ∧
        (exitScope s).1.expectedWeights = s.expectedWeights := by
      unfold exitScope
      split
      · simp
      · simp only; split_ifs <;> simp
    simp only [step, aggWeights, List.append_nil]
    split <;> rename_i heq <;> rw [heq] at this <;> exact this
  | aggregation w =>
    have : (computeBudgetForAggregation s w).1.actualWeights = s.actualWeights ++ [w] ∧
        (computeBudgetForAggregation s w).1.expectedNum = s.expectedNum ∧
        (computeBudgetForAggregation s w).1.expectedWeights = s.expectedWeights := by
      unfold computeBudgetForAggregation
      simp only
      split
      · simp
      · split
        · split_ifs <;> simp
        · simp
    simp only [step, aggWeights]
    split <;> rename_i heq <;> rw [heq] at this <;> exact this
  | compute =>
    rcases compute_cases s with ⟨_, h⟩ | ⟨_, h⟩ | ⟨_, _, ⟨_, h⟩ | ⟨_, _, h⟩ | ⟨_, _, h⟩⟩ <;>
      rw [h] <;> simp [aggWeights]
  | readEps i => simp [step, aggWeights]
  | readDelta i => simp [step, aggWeights]

theorem aggWeights_cons (op : Op) (ops : List Op) :
    aggWeights (op :: ops) = aggWeights [op] ++ aggWeights ops := by
  cases op <;> simp [aggWeights]

theorem actualWeights_run (s : State) (ops : List Op) :
    (run s ops).1.actualWeights = s.actualWeights ++ aggWeights ops ∧
    (run s ops).1.expectedNum = s.expectedNum ∧
    (run s ops).1.expectedWeights = s.expectedWeights := by
  induction ops generalizing s with
  | nil => simp [run, aggWeights]
  | cons op ops ih =>
    rw [run_cons]
    obtain ⟨h1, h2, h3⟩ := ih (step s op).1
    obtain ⟨g1, g2, g3⟩ := actualWeights_step s op
    refine ⟨?_, h2.trans g2, h3.trans g3⟩
    rw [h1, g1, aggWeights_cons op ops, List.append_assoc]

theorem zip_all_eq_iff (a b : List ℚ) :
    (a.length == b.length && (a.zip b).all fun p => p.1 == p.2) = true ↔ a = b := by
  induction a generalizing b with
  | nil => cases b <;> simp
  | cons x a ih =>
    cases b with
    | nil => simp
    | cons y b =>
      have := ih b
      simp only [List.length_cons, List.zip_cons_cons, List.all_cons, List.cons.injEq,
        Bool.and_eq_true, beq_iff_eq, Nat.add_right_cancel_iff] at this ⊢
      constructor
      · rintro ⟨h1, h2, h3⟩; exact ⟨h2, this.mp ⟨h1, h3⟩⟩
      · rintro ⟨h1, h2⟩; have := this.mpr h2; exact ⟨this.1, h1, this.2⟩

/-- **C05a**.  In every history, `compute_budgets` raises the restriction error exactly if the
constructor fixed a number `n` of aggregations and the history does not have exactly `n` aggregations
all of weight 1, or the constructor fixed a non-empty weight list and the history's aggregation
weights are not exactly that list in that order. -/
theorem C05_restrictions_enforced {e d : ℚ} {num ws s0} {ops : List Op}
    (h0 : init e d num ws = .ok s0) :
    (step (run s0 ops).1 .compute).2 = .raised .aggregationRestriction ↔
      (∃ n : ℤ, num = some n ∧
        ¬ (((aggWeights ops).length : ℤ) = n ∧ ∀ w ∈ aggWeights ops, w = 1)) ∨
      (∃ l, ws = some l ∧ l ≠ [] ∧ aggWeights ops ≠ l) := by
  obtain ⟨he, hd, -, hs0, hboth, hn⟩ := init_facts h0
  obtain ⟨h1, h2, h3⟩ := actualWeights_run s0 ops
  have h1 : (run s0 ops).1.actualWeights = aggWeights ops := by rw [h1, hs0]; rfl
  have h2 : (run s0 ops).1.expectedNum = num := by rw [h2, hs0]
  have h3 : (run s0 ops).1.expectedWeights = ws := by rw [h3, hs0]
  set s := (run s0 ops).1
  have hiff : (step s .compute).2 = .raised .aggregationRestriction ↔ checkRestrictions s = false := by
    constructor
    · intro h
      by_contra hne
      simp only [Bool.not_eq_false] at hne
      rcases compute_cases s with ⟨hx, _⟩ | ⟨_, h'⟩ | ⟨_, _, ⟨_, h'⟩ | ⟨_, _, h'⟩ | ⟨_, _, h'⟩⟩
      · rw [hne] at hx; simp at hx
      all_goals rw [h'] at h; simp at h
    · intro h; simp [step, computeBudgets, h]
  rw [hiff, checkRestrictions, h1, h2, h3]
  cases num with
  | none =>
    cases ws with
    | none => simp [truthyNum, truthyList]
    | some l =>
      cases l with
      | nil => simp [truthyNum, truthyList]
      | cons x l =>
        have := zip_all_eq_iff (aggWeights ops) (x :: l)
        simp only [truthyNum, truthyList, Bool.true_and]
        rw [← Bool.not_eq_true, this]
        simp
  | some n =>
    have hpos := hn n rfl
    have hws : ws = none := by
      by_contra h; exact hboth ⟨rfl, by cases ws <;> simp_all⟩
    have hne : n ≠ 0 := by omega
    simp [truthyNum, truthyList, hws, hne]

/-! ## Announced budgets -/

/-- One aggregation: its budget weight and the requests and scopes inside it. -/
structure Agg where
  weight : ℚ
  body : Forest

/-- The calls one aggregation makes on the accountant: `dp_engine.py:94-107`. -/
def Agg.ops (a : Agg) : List Op := .enter a.weight :: (a.body.ops ++ [.aggregation a.weight, .exit])

/-- The budgets announced in a history. -/
def announced (outs : List Out) : List (Option (ℚ × ℚ)) :=
  outs.filterMap fun o => match o with
    | .budget b => some b
    | _ => none

theorem announced_append (a b : List Out) : announced (a ++ b) = announced a ++ announced b := by
  simp [announced]

theorem announced_cons (a : Out) (b : List Out) : announced (a :: b) = announced [a] ++ announced b :=
  announced_append [a] b

/-- Announced budget for a weight (specification of `computeBudgetForAggregation` on valid states). -/
def announce (e d : ℚ) (num : Option ℤ) (ws : Option (List ℚ)) (w : ℚ) : Option (ℚ × ℚ) :=
  match num, ws with
  | some n, _ => some (e / n, d / n)
  | none, some (x :: l) => some (e * (w / (x :: l).sum), d * (w / (x :: l).sum))
  | none, _ => none

theorem announced_forest (f : Forest) (s : State) : announced (run s f.ops).2 = [] := by
  induction f generalizing s with
  | nil => rfl
  | req t sens w c next ih =>
    rw [Forest.ops, run_cons]
    have h1 : announced [(step s (.request t sens w c none)).2] = [] := by
      simp only [step]; split <;> rfl
    rw [← List.singleton_append, announced_append, h1, ih]; rfl
  | scope w body next ih1 ih2 =>
    rw [Forest.ops, run_cons, run_append, run_cons]
    have : ∀ s : State, announced [(step s .exit).2] = [] := by
      intro s; simp only [step]; split <;> rfl
    simp only
    rw [announced_cons, announced_append, ih1, announced_cons (step _ .exit).2, ih2, this]
    rfl

/-- Effect of one aggregation started outside of any scope. -/
theorem run_agg (a : Agg) (hp : a.body.Positive)
    (hne : a.body.size ≠ 0) (s : State) (hst : s.stack = []) (hf : s.finalized = false)
    (hg : s.totalDelta ≠ 0 ∨ a.body.NoGaussian) (hnum : ∀ n, s.expectedNum = some n → 0 < n)
    (hsum : ∀ l, s.expectedWeights = some l → l ≠ [] → l.sum ≠ 0) :
    (run s a.ops).1 = { s with
      mechs := s.mechs ++ a.body.mechsAt (a.weight / a.body.share)
      actualWeights := s.actualWeights ++ [a.weight] } ∧
    (∀ o ∈ (run s a.ops).2, ∀ err, o ≠ .raised err) ∧
    announced (run s a.ops).2
      = [announce s.totalEps s.totalDelta s.expectedNum s.expectedWeights a.weight] := by
  have hgb : (enterScope s a.weight).totalDelta ≠ 0 ∨ a.body.NoGaussian := hg
  obtain ⟨hb1, hb2⟩ := run_forest a.body hp (enterScope s a.weight) hf hgb
  rw [Agg.ops, run_cons, run_append]
  rw [show (step s (.enter a.weight)) = (enterScope s a.weight, .unit) from rfl]
  simp only
  have hann := announced_forest a.body (enterScope s a.weight)
  set outs := (run (enterScope s a.weight) a.body.ops).2
  have hb1' : (run (enterScope s a.weight) a.body.ops).1 = { s with
      mechs := s.mechs ++ a.body.mechsAt 1
      stack := [⟨a.weight, List.range' s.mechs.length a.body.size⟩] } := by
    rw [hb1]; simp [enterScope, hst, Scope.add]
  rw [hb1']
  have hagg : step { s with
      mechs := s.mechs ++ a.body.mechsAt 1
      stack := [⟨a.weight, List.range' s.mechs.length a.body.size⟩] } (.aggregation a.weight)
      = ({ s with
          mechs := s.mechs ++ a.body.mechsAt 1
          stack := [⟨a.weight, List.range' s.mechs.length a.body.size⟩]
          actualWeights := s.actualWeights ++ [a.weight] },
        .budget (announce s.totalEps s.totalDelta s.expectedNum s.expectedWeights a.weight)) := by
    simp only [step, computeBudgetForAggregation]
    cases hn : s.expectedNum with
    | some n =>
      have : n ≠ 0 := (hnum n hn).ne'
      simp [truthyNum, this, announce]
    | none =>
      cases hwt : s.expectedWeights with
      | none => simp [truthyNum, truthyList, announce]
      | some l =>
        cases l with
        | nil => simp [truthyNum, truthyList, announce]
        | cons x l =>
          have := hsum _ hwt (by simp)
          simp only [truthyNum, truthyList, announce, if_neg this]
  have hexit : step { s with
          mechs := s.mechs ++ a.body.mechsAt 1
          stack := [⟨a.weight, List.range' s.mechs.length a.body.size⟩]
          actualWeights := s.actualWeights ++ [a.weight] } .exit = ({ s with
      mechs := s.mechs ++ a.body.mechsAt (a.weight / a.body.share)
      actualWeights := s.actualWeights ++ [a.weight] }, .unit) := by
    simp only [step, exitScope]
    have hne' : List.range' s.mechs.length a.body.size ≠ [] := by simpa using hne
    have hs : ((List.range' s.mechs.length a.body.size).map
        (weightAt (s.mechs ++ a.body.mechsAt 1))).sum = a.body.share := by
      rw [← Forest.length_mechsAt a.body 1, weightAt_range', Forest.map_weight_mechsAt,
        Forest.sum_alloc _ _ hp, one_mul]
    have hpos := Forest.share_pos a.body hp hne
    simp only [if_neg hne', hs, if_neg hpos.ne']
    rw [← Forest.length_mechsAt a.body 1, scaleAll_range', Forest.mechsAt_mul, one_mul, hst]
  rw [run_cons, hagg]
  simp only
  rw [run_cons, hexit]
  simp only [run]
  refine ⟨trivial, ?_, ?_⟩
  · intro o ho err
    simp only [List.mem_cons, List.mem_append, List.not_mem_nil, or_false] at ho
    rcases ho with rfl | ho | rfl | rfl
    · simp
    · exact hb2 o ho err
    · simp
    · simp
  · rw [← List.singleton_append, announced_append, announced_append, hann]
    rfl

/-- Effect of a sequence of aggregations. -/
theorem run_aggs (aggs : List Agg) (hpos : ∀ a ∈ aggs, 0 < a.weight ∧ a.body.Positive ∧ a.body.size ≠ 0)
    (s : State) (hst : s.stack = []) (hf : s.finalized = false)
    (hg : s.totalDelta ≠ 0 ∨ ∀ a ∈ aggs, a.body.NoGaussian)
    (hnum : ∀ n, s.expectedNum = some n → 0 < n)
    (hsum : ∀ l, s.expectedWeights = some l → l ≠ [] → l.sum ≠ 0) :
    (run s (aggs.flatMap Agg.ops)).1 = { s with
      mechs := s.mechs ++ aggs.flatMap fun a => a.body.mechsAt (a.weight / a.body.share)
      actualWeights := s.actualWeights ++ aggs.map Agg.weight } ∧
    (∀ o ∈ (run s (aggs.flatMap Agg.ops)).2, ∀ err, o ≠ .raised err) ∧
    announced (run s (aggs.flatMap Agg.ops)).2
      = aggs.map fun a => announce s.totalEps s.totalDelta s.expectedNum s.expectedWeights a.weight := by
  induction aggs generalizing s with
  | nil => simp [run, announced]
  | cons a aggs ih =>
    obtain ⟨-, h2, h3⟩ := hpos a (by simp)
    obtain ⟨r1, r2, r3⟩ := run_agg a h2 h3 s hst hf
      (by rcases hg with h | h; exact .inl h; exact .inr (h a (by simp))) hnum hsum
    obtain ⟨t1, t2, t3⟩ := ih (fun b hb => hpos b (by simp [hb])) (run s a.ops).1
      (by rw [r1]; exact hst) (by rw [r1]; exact hf)
      (by rw [r1]; rcases hg with h | h
          · exact .inl h
          · exact .inr (fun b hb => h b (by simp [hb])))
      (by rw [r1]; exact hnum) (by rw [r1]; exact hsum)
    rw [List.flatMap_cons, run_append]
    simp only
    refine ⟨?_, ?_, ?_⟩
    · rw [t1, r1]; simp
    · intro o ho err
      rcases List.mem_append.mp ho with ho | ho
      · exact r2 o ho err
      · exact t2 o ho err
    · rw [announced_append, r3, t3, r1]; simp

theorem aggs_total (aggs : List Agg)
    (hpos : ∀ a ∈ aggs, 0 < a.weight ∧ a.body.Positive ∧ a.body.size ≠ 0)
    (hc : ∀ a ∈ aggs, a.body.CountOne) :
    totalWeightEps (aggs.flatMap fun a => a.body.mechsAt (a.weight / a.body.share))
      = (aggs.map Agg.weight).sum := by
  rw [totalWeightEps_eq]
  induction aggs with
  | nil => simp
  | cons a aggs ih =>
    obtain ⟨h1, h2, h3⟩ := hpos a (by simp)
    have hsp := (a.body.share_pos h2 h3).ne'
    have : (a.body.mechsAt (a.weight / a.body.share)).map (fun m => m.weight * (m.count : ℚ))
        = (a.body.mechsAt (a.weight / a.body.share)).map Mech.weight := by
      apply List.map_congr_left
      intro m hm; rw [a.body.counts_mechsAt (hc a (by simp)) _ m hm]; simp
    rw [List.flatMap_cons, List.map_append, List.sum_append, this, Forest.map_weight_mechsAt,
      Forest.sum_alloc _ _ h2, ih (fun b hb => hpos b (by simp [hb])) (fun b hb => hc b (by simp [hb]))]
    simp only [List.map_cons, List.sum_cons]
    field_simp

/-- **C05b**.  A pipeline of aggregations (each with at least one mechanism, positive weights) that
meets the restrictions fixed in the constructor: nothing raises, one budget is announced per
aggregation, and after `compute_budgets` the epsilons of the mechanisms of each aggregation add up to
exactly the epsilon announced for it. -/
theorem C05_announced_epsilon_is_granted {e d : ℚ} {num ws s0} (h0 : init e d num ws = .ok s0)
    (aggs : List Agg) (hne : aggs ≠ [])
    (hpos : ∀ a ∈ aggs, 0 < a.weight ∧ a.body.Positive ∧ a.body.size ≠ 0)
    (hc : ∀ a ∈ aggs, a.body.CountOne) (hg : d ≠ 0 ∨ ∀ a ∈ aggs, a.body.NoGaussian)
    (hres : (∃ n : ℤ, num = some n ∧ (aggs.length : ℤ) = n ∧ ∀ a ∈ aggs, a.weight = 1) ∨
            ws = some (aggs.map Agg.weight)) :
    let ops := aggs.flatMap Agg.ops ++ [.compute]
    (∀ o ∈ (run s0 ops).2, ∀ err, o ≠ .raised err) ∧
    ∃ parts : List (List ℚ),
      parts.map List.length = aggs.map (fun a => a.body.size) ∧
      (∀ j (hj : j < parts.flatten.length), seesEps (run s0 ops).1 j parts.flatten[j]) ∧
      (announced (run s0 ops).2).map (Option.map Prod.fst) = parts.map fun p => some p.sum := by
  intro ops
  obtain ⟨he, hd, -, hs0, hboth, hnp⟩ := init_facts h0
  have hW : 0 < (aggs.map Agg.weight).sum := by
    obtain ⟨a, ha⟩ := List.exists_mem_of_ne_nil _ hne
    exact sum_pos_of_mem aggs Agg.weight (fun b hb => (hpos b hb).1.le) ha (hpos a ha).1
  obtain ⟨r1, r2, r3⟩ := run_aggs aggs hpos s0 (by rw [hs0]) (by rw [hs0]) (by rw [hs0]; exact hg)
    (by rw [hs0]; exact hnp)
    (by
      rw [hs0]; rintro l hl hl'
      have hl : ws = some l := hl
      rcases hres with ⟨n, hn, -, -⟩ | h
      · exact absurd ⟨by rw [hn]; rfl, by rw [hl]; rfl⟩ hboth
      · rw [hl] at h; simp only [Option.some.injEq] at h; rw [h]; exact hW.ne')
  set W := (aggs.map Agg.weight).sum with hWdef
  set ms := aggs.flatMap fun a => a.body.mechsAt (a.weight / a.body.share) with hms
  have hmsne : ms ≠ [] := by
    obtain ⟨a, ha⟩ := List.exists_mem_of_ne_nil _ hne
    intro h
    rw [hms, List.flatMap_eq_nil_iff] at h
    have h2 := h a ha
    have h3 := a.body.length_mechsAt (a.weight / a.body.share)
    rw [h2] at h3
    exact (hpos a ha).2.2 h3.symm
  have htot : totalWeightEps ms = W := aggs_total aggs hpos hc
  have hs : (run s0 (aggs.flatMap Agg.ops)).1
      = ⟨e, d, num, ws, aggs.map Agg.weight, [], ms, false⟩ := by
    rw [r1, hs0]; simp
  have hchk : checkRestrictions ⟨e, d, num, ws, aggs.map Agg.weight, [], ms, false⟩ = true := by
    have hL : aggs.map Agg.weight ≠ [] := by simpa using hne
    unfold checkRestrictions
    rcases hres with ⟨n, hn, hlen, hone⟩ | h
    · have hws : ws = none := by
        by_contra h'; exact hboth ⟨by rw [hn]; rfl, by cases ws <;> simp_all⟩
      have := hnp n hn
      have hn0 : n ≠ 0 := this.ne'
      simp [hn, hws, truthyNum, truthyList, hn0, hlen]
      exact hone
    · have hnum : num = none := by
        by_contra h'; exact hboth ⟨by cases num <;> simp_all, by rw [h]; rfl⟩
      have := (zip_all_eq_iff (aggs.map Agg.weight) (aggs.map Agg.weight)).mpr rfl
      have htl : truthyList (some (aggs.map Agg.weight)) = some (aggs.map Agg.weight) := by
        unfold truthyList; split
        · rename_i h; exact absurd (by simpa using h) hL
        · rfl
      simp only [h, hnum, htl, truthyNum, Bool.true_and]; exact this
  have hcomp : step (run s0 (aggs.flatMap Agg.ops)).1 .compute
      = (⟨e, d, num, ws, aggs.map Agg.weight, [], ms.map (assign e d W (totalWeightDelta ms)), true⟩,
        .unit) := by
    rw [hs]
    simp only [step, computeBudgets, hchk]
    simp [hmsne, htot]
  have hrun : run s0 ops = (⟨e, d, num, ws, aggs.map Agg.weight, [],
      ms.map (assign e d W (totalWeightDelta ms)), true⟩,
      (run s0 (aggs.flatMap Agg.ops)).2 ++ [.unit]) := by
    simp only [ops, run_append, run, hcomp]
  rw [hrun]
  refine ⟨?_, aggs.map (fun a => a.body.alloc (a.weight / a.body.share * (e / W))), ?_, ?_, ?_⟩
  · intro o ho err
    rcases List.mem_append.mp ho with ho | ho
    · exact r2 o ho err
    · simp at ho; rw [ho]; simp
  · simp [Forest.length_alloc]
  · have hfl : (aggs.map (fun a => a.body.alloc (a.weight / a.body.share * (e / W)))).flatten
        = ms.map fun m => m.weight * (e / W) := by
      rw [hms]
      clear_value W
      clear hne hpos hc hg hres r1 r2 r3 hms hmsne htot hs hchk hcomp hrun hWdef ops
      induction aggs with
      | nil => rfl
      | cons a aggs ih =>
        simp only [List.map_cons, List.flatten_cons, List.flatMap_cons, List.map_append, ih]
        congr 1
        rw [← Forest.alloc_mul, ← Forest.map_weight_mechsAt, List.map_map]
        rfl
    intro j hj
    simp only [hfl, List.length_map] at hj
    rw [seesEps_iff]
    refine ⟨_, by rw [List.getElem?_map, List.getElem?_eq_getElem hj]; rfl, ?_⟩
    simp only [assign, if_pos hW.ne', hfl, List.getElem_map, Option.some.injEq]
    ring
  · rw [announced_append, r3, hs0]
    simp only [announced, List.filterMap_cons, List.filterMap_nil, List.append_nil, List.map_map]
    apply List.map_congr_left
    intro a ha
    obtain ⟨h1, h2, h3⟩ := hpos a ha
    have hsp := (a.body.share_pos h2 h3).ne'
    have hsum : (a.body.alloc (a.weight / a.body.share * (e / W))).sum = e * (a.weight / W) := by
      rw [Forest.sum_alloc _ _ h2]; field_simp
    simp only [Function.comp_apply, hsum]
    rcases hres with ⟨n, hn, hlen, hone⟩ | h
    · have hWn : W = n := by
        rw [hWdef, List.map_congr_left hone]
        simp [← hlen]
      simp only [announce, hn, Option.map_some, hone a ha, hWn]
      congr 1; ring
    · have hnum : num = none := by
        by_contra h'; exact hboth ⟨by cases num <;> simp_all, by rw [h]; rfl⟩
      obtain ⟨x, l, hxl⟩ : ∃ x l, aggs.map Agg.weight = x :: l := by
        cases aggs with
        | nil => exact absurd rfl hne
        | cons b aggs => exact ⟨_, _, rfl⟩
      rw [h, hnum, hxl]
      simp only [announce, Option.map_some]
      rw [hWdef, hxl]

/-- A pipeline meeting the hypotheses: weights 1 and 3, the second aggregation with two mechanisms. -/
def demoAggs : List Agg :=
  [⟨1, .req .gaussian 1 1 1 .nil⟩, ⟨3, .req .generic 1 1 1 (.req .laplace 1 3 1 .nil)⟩]

example : (∃ s0, init 1 (1/10) none (some (demoAggs.map Agg.weight)) = .ok s0) ∧ demoAggs ≠ [] ∧
    (∀ a ∈ demoAggs, 0 < a.weight ∧ a.body.Positive ∧ a.body.size ≠ 0) ∧
    (∀ a ∈ demoAggs, a.body.CountOne) := by
  refine ⟨⟨⟨1, 1/10, none, some [1, 3], [], [], [], false⟩, by norm_num [init, demoAggs]⟩, ?_, ?_, ?_⟩ <;>
    simp [demoAggs, Forest.Positive, Forest.size, Forest.CountOne]

/-- **C05c** (defect).  The announced *delta* is not what the aggregation consumes: two aggregations
of equal weight, only one of which can use delta; `delta/2` is announced for each, but the second one
is granted all of it. -/
theorem C05_announced_delta_can_be_wrong :
    ∃ s0, init 1 (1/10) (some 2) none = .ok s0 ∧
    let ops := [Agg.mk 1 (.req .laplace 1 1 1 .nil), Agg.mk 1 (.req .gaussian 1 1 1 .nil)].flatMap Agg.ops
      ++ [.compute]
    announced (run s0 ops).2 = [some (1/2, 1/20), some (1/2, 1/20)] ∧
    seesDelta (run s0 ops).1 0 0 ∧ seesDelta (run s0 ops).1 1 (1/10) := by
  refine ⟨⟨1, 1/10, some 2, none, [], [], [], false⟩, by norm_num [init], by decide +kernel, ?_, ?_⟩ <;>
    unfold seesDelta <;> decide +kernel

end PDP.Budget
