import Verif.EndToEnd.CustomProps

/-! # Custom combiners: budgets, outputs, and that nothing is left out (C74) -/

set_option linter.unusedSectionVars false

namespace PDP.EndToEnd

open PDP PDP.Engine MeasureTheory
open PDP.Engine.Mechanism (Additive createAdditive computed)
open PDP.Engine.AddNoise (specOf)
open PDP.Budget (State Op MechType Out)
open PDP.Approx (Indist)

variable {R P K V A O : Type} [DecidableEq P] [DecidableEq K] [MeasurableSpace O]

/-! ### Pipelines run -/

/-- The announcements made to the accountant fit the pipeline. -/
def AnnouncedX (num : Option ℤ) (ws : Option (List ℚ)) (cs : List (XStep R K V)) : Prop :=
  (∀ n, num = some n → n = cs.length ∧ ∀ c ∈ cs, c.weight = 1) ∧ (∀ l, ws = some l → l = cs.map XStep.weight)

theorem buildX_runs (cls : ℕ → CustomClass V A O) (fmt : ℚ → String) (rs : List Request) (st : Store) {c : XStep R K V}
    (hc : c.SupportedAny cls) (hbuild : ∀ c', c = .step (.call c') → ∃ b rs', build fmt rs c' = (.ok b, rs')) {d : ℚ}
    (hd : c.NeedsDelta cls → 0 < d) :
    ∃ b rs' ops st1, buildX cls fmt rs st c = .ok (b, rs', ops, st1) ∧
      ∀ s : State, s.finalized = false → s.stack = [] → s.totalDelta = d →
        (∀ ws, Budget.truthyList s.expectedWeights = some ws → ws.sum ≠ 0) →
        let s' := (Budget.run s ops).1
        (s'.finalized = false ∧ s'.stack = [] ∧ s'.actualWeights = s.actualWeights ++ [c.weight] ∧
          s'.expectedNum = s.expectedNum ∧ s'.expectedWeights = s.expectedWeights ∧ s'.totalDelta = s.totalDelta) ∧
        ∀ x ∈ (Budget.run s ops).2, Out.Fine x := by
  cases c with
  | step c =>
    cases c with
    | call c =>
      obtain ⟨b, rs', hb⟩ := hbuild c rfl
      obtain ⟨new, rfl, -, -, h4⟩ := build_requests (show c.SupportedAny from hc) hb
      refine ⟨.step (.call b), rs ++ new, callOps c.weight new, st, ?_, ?_⟩
      · simp only [buildX, buildStep, hb, List.drop_left]
      · intro s hsf hst htd hws
        exact run_callOps (w := c.weight) (l := new) (fun r hr => (h4 r hr).1) s hsf hst
          (fun r hr hm => by
            rw [htd]
            exact (hd ((h4 r hr).2 (by rw [hm]; simp))).ne') hws
    | noise p f =>
      obtain ⟨⟨a, ha, ha0⟩, ⟨b, hb', hb0⟩, -⟩ := (show Step.SupportedAny (.noise p f) from hc)
      have hm := AddNoise.mkSens_ok ha0 hb0
      refine ⟨.step (.noise (requestBudget rs p.kind.mechanism 1).1
        ⟨some (a : ℝ), some (b : ℝ), some ((a : ℝ) * b), some (Real.sqrt a * b)⟩), (requestBudget rs p.kind.mechanism 1).2,
        noiseOps p, st, ?_, ?_⟩
      · simp only [buildX, buildStep, ha, hb', Option.map_some, hm]
      · intro s hsf hst htd hws
        exact run_noiseOps s hsf hst (fun hk => by rw [htd]; exact (hd hk).ne') hws
  | custom c =>
    have hc : c.Supported cls := hc
    obtain ⟨l, st1, sel, new, h1, h2, -⟩ := buildCustom_eq cls rs st c hc.nonempty
    have hreq := custom_requests hc
    rw [← h2] at hreq
    refine ⟨_, _, _, _, h1, ?_⟩
    intro s hsf hst htd hws
    exact run_callOps (w := c.params.budgetWeight) (l := new) (fun r hr => (hreq r hr).1) s hsf hst
      (fun r hr hm => by
        rw [htd]
        exact (hd ((hreq r hr).2 (by rw [hm]; simp))).ne') hws

theorem planX_runs (fmt : ℚ → String) (cls : ℕ → CustomClass V A O) (cs : List (XStep R K V))
    (hs : ∀ c ∈ cs, c.SupportedAny cls)
    (hbuild : ∀ c', (XStep.step (.call c') : XStep R K V) ∈ cs → ∀ rs, ∃ b rs', build fmt rs c' = (.ok b, rs'))
    {e d : ℚ} {num ws s0} (h0 : Budget.init e d num ws = .ok s0)
    (hd : (∃ c ∈ cs, c.NeedsDelta cls) → 0 < d) (ha : AnnouncedX num ws cs) (st : Store) :
    ∃ bs ops st', planX cls fmt [] st cs = .ok (bs, ops, st') ∧ (∀ err, Out.raised err ∉ (Budget.run s0 ops).2) ∧
      (Budget.step (Budget.run s0 ops).1 .compute).2 = .unit := by
  have key : ∀ (cs : List (XStep R K V)) (rs : List Request) (st : Store), (∀ c ∈ cs, c.SupportedAny cls) →
      (∀ c', (XStep.step (.call c') : XStep R K V) ∈ cs → ∀ rs, ∃ b rs', build fmt rs c' = (.ok b, rs')) →
      ((∃ c ∈ cs, c.NeedsDelta cls) → 0 < d) →
      ∃ bs ops st', planX cls fmt rs st cs = .ok (bs, ops, st') ∧ ∀ s : State, s.finalized = false → s.stack = [] →
        s.totalDelta = d → (∀ ws, Budget.truthyList s.expectedWeights = some ws → ws.sum ≠ 0) →
        let s' := (Budget.run s ops).1
        (s'.finalized = false ∧ s'.stack = [] ∧ s'.actualWeights = s.actualWeights ++ cs.map XStep.weight ∧
          s'.expectedNum = s.expectedNum ∧ s'.expectedWeights = s.expectedWeights) ∧
        ∀ o ∈ (Budget.run s ops).2, Out.Fine o := by
    intro cs
    induction cs with
    | nil =>
      intro rs st _ _ _
      exact ⟨[], [], st, rfl, fun s hs hst _ _ => ⟨⟨hs, hst, by simp [Budget.run], rfl, rfl⟩, by simp [Budget.run]⟩⟩
    | cons c cs ih =>
      intro rs st hs hbuild hd
      obtain ⟨b, rs', o, st1, k0, k1⟩ := buildX_runs cls fmt rs st (hs c (by simp))
        (fun c' hc => hbuild c' (by simp [hc]) rs) fun h => hd ⟨c, by simp, h⟩
      obtain ⟨bs, ops, st', g1, k2⟩ := ih rs' st1 (fun c hc => hs c (by simp [hc]))
        (fun c' hc => hbuild c' (by simp [hc])) (fun ⟨c, hc, h⟩ => hd ⟨c, by simp [hc], h⟩)
      refine ⟨b :: bs, o ++ ops, st', by simp only [planX, k0, g1], ?_⟩
      intro s hsf hst htd hws
      obtain ⟨⟨b1, b2, b3, b4, b5, b6⟩, b7⟩ := k1 s hsf hst htd hws
      obtain ⟨⟨c1, c2, c3, c4, c5⟩, c6⟩ := k2 _ b1 b2 (by rw [b6, htd]) (by rw [b5]; exact hws)
      rw [Budget.run_append]
      refine ⟨⟨c1, c2, ?_, by rw [c4, b4], by rw [c5, b5]⟩, ?_⟩
      · rw [c3, b3]; simp
      · intro o ho
        rcases List.mem_append.mp ho with ho | ho
        · exact b7 o ho
        · exact c6 o ho
  obtain ⟨bs, ops, st', h1, h2⟩ := key cs [] st hs hbuild hd
  refine ⟨bs, ops, st', h1, announced_run (weights := cs.map XStep.weight) ?_ h0 ⟨?_, ha.2⟩ h2⟩
  · intro w hw
    obtain ⟨c, hc, rfl⟩ := List.mem_map.mp hw
    exact (hs c hc).weight
  · intro n hn
    obtain ⟨h1, h2⟩ := ha.1 n hn
    refine ⟨by rw [List.length_map]; exact h1, fun w hw => ?_⟩
    obtain ⟨c, hc, rfl⟩ := List.mem_map.mp hw
    exact h2 c hc

/-- **C74** (pipelines run).  For supported steps the driver raises no exception: neither the engine nor any call on the
accountant, and `compute_budgets` succeeds, whatever fitting announcements were made. -/
theorem C74_supported_pipeline_runs (fmt : ℚ → String) (cls : ℕ → CustomClass V A O) (cs : List (XStep R K V))
    (hs : ∀ c ∈ cs, c.Supported cls) {e d : ℚ} {num ws s0} (h0 : Budget.init e d num ws = .ok s0)
    (hd : (∃ c ∈ cs, c.NeedsDelta cls) → 0 < d) (ha : AnnouncedX num ws cs) (st : Store) :
    ∃ bs ops st', planX cls fmt [] st cs = .ok (bs, ops, st') ∧ (∀ err, Out.raised err ∉ (Budget.run s0 ops).2) ∧
      (Budget.step (Budget.run s0 ops).1 .compute).2 = .unit := by
  exact planX_runs fmt cls cs (fun c hc => (hs c hc).any) (fun c' hc rs => build_ok fmt rs (show c'.Supported from hs _ hc)) h0 hd ha st

/-- **C74** (no combiners).  A call with an empty list of custom combiners raises `TypeError`, so that no pipeline with such a call
is built. -/
theorem C74_empty_list_is_rejected (fmt : ℚ → String) (cls : ℕ → CustomClass V A O) (c : CustomCall R K V) (hc : c.combiners = []) :
    (∀ rs st, buildX cls fmt rs st (.custom c) = .error .typeError) ∧
    ∀ (cs : List (XStep R K V)) (rs : List Request) (st : Store), XStep.custom c ∈ cs → ∀ x, planX cls fmt rs st cs ≠ .ok x := by
  have h1 : ∀ rs st, buildX cls fmt rs st (.custom c) = .error .typeError := by
    intro rs st
    simp only [buildX, buildCustom, hc, if_true]
  refine ⟨h1, fun cs => ?_⟩
  induction cs with
  | nil => intro _ _ h; simp at h
  | cons c0 cs ih =>
    intro rs st h x hx
    rw [planX] at hx
    rcases List.mem_cons.mp h with rfl | h
    · rw [h1] at hx; cases hx
    · rcases hb : buildX cls fmt rs st c0 with e | ⟨b, rs', ops, st1⟩
      · rw [hb] at hx; cases hx
      · rw [hb] at hx
        dsimp only at hx
        rcases hp : planX cls fmt rs' st1 cs with e | y
        · rw [hp] at hx; cases hx
        · exact ih rs' st1 h y hp

/-! ### Budgets -/

/-- **C74** (requests).  A call with custom combiners makes on the accountant, in the scope of its weight, the requests of its
combiners in their order, and then the one for private partition selection if there are no public partitions. -/
theorem C74_requests (cls : ℕ → CustomClass V A O) (fmt : ℚ → String) (rs : List Request) (st : Store) (c : CustomCall R K V)
    (hne : c.combiners ≠ []) :
    ∃ l sel st1 new, buildX cls fmt rs st (.custom c) = .ok (.custom l sel, rs ++ new,
        .enter c.params.budgetWeight :: (new.map fun r => .request (toMechType r.mechanism) 1 r.weight 1 none) ++
          [.aggregation c.params.budgetWeight, .exit], st1) ∧
      new = c.combiners.flatMap (fun o => (cls o).requests c.params) ++
        (if c.partitions = none ∧ c.params.postThresholding = false ∧ c.params.publicFiltered = false then [⟨.generic, 1⟩] else []) := by
  obtain ⟨l, st1, sel, new, h1, h2, -⟩ := buildCustom_eq cls rs st c hne
  refine ⟨l, sel, st1, new, h1, ?_⟩
  rw [h2]
  congr 1
  have : selectsPrivately c.params c.partitions = true ↔
      c.partitions = none ∧ c.params.postThresholding = false ∧ c.params.publicFiltered = false := by
    simp [selectsPrivately, and_assoc]
  by_cases h : selectsPrivately c.params c.partitions = true
  · rw [if_pos h, if_pos (this.mp h)]
  · rw [if_neg h, if_neg fun hh => h (this.mpr hh)]

/-- **C74** (every combiner uses its own budgets).  In a pipeline in which no object is used twice, when the graph is evaluated each
combiner has the parameters of its call, and the budgets which were requested for it: as many as it has requested, with the
mechanisms that it asked for, and different from all other budgets of the pipeline. -/
theorem C74_each_combiner_uses_its_own_budgets (fmt : ℚ → String) (cls : ℕ → CustomClass V A O) (cs : List (XStep R K V))
    (hs : ∀ c ∈ cs, c.Supported cls) (hn : (cs.flatMap XStep.objects).Nodup) {st bs ops st'}
    (hp : planX cls fmt [] st cs = .ok (bs, ops, st')) :
    (bs.flatMap BuiltX.specs).Nodup ∧ bs.length = cs.length ∧
    ∀ (j : ℕ) (c : CustomCall R K V), cs[j]? = some (.custom c) → ∃ l sel, bs[j]? = some (.custom l sel) ∧
      l.length = c.combiners.length ∧
      ∀ (i : ℕ) (o : ℕ), c.combiners[i]? = some o → ∃ is, l[i]? = some is ∧ st' o = some (c.params, is) ∧
        List.Forall₂ (fun (r : Request) k => (ops.filterMap reqOf)[k]? = some (toMechType r.mechanism, 1))
          ((cls o).requests c.params) is := by
  obtain ⟨-, -, new, hreq, hspecs, hrq, -⟩ := planX_spec (fun c hc => (hs c hc).any) hn hp
  refine ⟨by rw [hspecs]; exact List.nodup_range', hrq.length_eq.symm, ?_⟩
  intro j c hj
  have hlen : j < bs.length := by
    rw [← hrq.length_eq]
    by_contra h
    rw [List.getElem?_eq_none (not_lt.mp h)] at hj
    cases hj
  have hjc : j < cs.length := by rw [hrq.length_eq]; exact hlen
  have h := List.Forall₂.get hrq hjc hlen
  have hcj : cs.get ⟨j, hjc⟩ = .custom c := by
    rw [List.getElem?_eq_getElem hjc] at hj
    exact Option.some.inj hj
  rw [hcj] at h
  rcases hb : bs.get ⟨j, hlen⟩ with b | ⟨l, sel⟩
  · rw [hb] at h; exact h.elim
  · rw [hb] at h
    obtain ⟨⟨z, z1, z2, z3⟩, -, -⟩ := h
    refine ⟨l, sel, by rw [List.getElem?_eq_getElem hlen]; exact congrArg some hb, ?_, ?_⟩
    · rw [← z1, ← z2, List.length_map, List.length_map]
    · intro i o hi
      rw [← z1, List.getElem?_map] at hi
      cases hz : z[i]? with
      | none => rw [hz] at hi; cases hi
      | some q =>
        rw [hz] at hi
        cases hi
        obtain ⟨g1, g2⟩ := z3 q (List.mem_of_getElem? hz)
        refine ⟨q.2, by rw [← z2, List.getElem?_map, hz]; rfl, g1, g2.imp fun r k hk => ?_⟩
        rw [hreq, List.getElem?_map]
        rw [List.nil_append] at hk
        rw [hk]; rfl

/-! ### Outputs -/

/-- A combiner of class `q.1` with its fields. -/
noncomputable def readyGen (q : CustomClass V A O × Params × List (ℝ × ℝ)) : ReadyCombiner V A O :=
  ⟨q.1.create q.2.1, q.1.merge q.2.1, q.1.compute q.2.1 q.2.2⟩

theorem mergeEach_gen (z : List (CustomClass V A O × Params × List (ℝ × ℝ))) (f g : CustomClass V A O × Params × List (ℝ × ℝ) → A) :
    mergeEach (z.map readyGen) (z.map f) (z.map g) = z.map fun q => q.1.merge q.2.1 (f q) (g q) := by
  induction z with
  | nil => rfl
  | cons q z ih => simp only [List.map_cons, mergeEach, ih]; rfl

theorem customCompute_gen (z : List (CustomClass V A O × Params × List (ℝ × ℝ))) (f : CustomClass V A O × Params × List (ℝ × ℝ) → A)
    (n : ℕ) : customCompute (z.map readyGen) (n, z.map f) = z.map fun q => q.1.compute q.2.1 q.2.2 (f q) := by
  unfold customCompute
  induction z with
  | nil => rfl
  | cons q z ih =>
    simp only [List.map_cons, List.zipWith_cons_cons]
    exact congrArg₂ List.cons rfl ih

theorem tree_gen {z : List (CustomClass V A O × Params × List (ℝ × ℝ))}
    (hassoc : ∀ q ∈ z, ∀ a b d, q.1.merge q.2.1 (q.1.merge q.2.1 a b) d = q.1.merge q.2.1 a (q.1.merge q.2.1 b d))
    (t : MergeTree (ℕ × List A)) : ∀ xs : List (List V), t.leaves = xs.map (customCreate (z.map readyGen)) →
      xs ≠ [] ∧ t.eval (customMerge (z.map readyGen)) = (xs.length, z.map fun q => q.1.total q.2.1 xs) := by
  induction t with
  | leaf a =>
    intro xs h
    simp only [MergeTree.leaves] at h
    obtain ⟨x, l, rfl, rfl, h2⟩ := List.map_eq_cons_iff.mp h.symm
    have : l = [] := by simpa using h2
    subst this
    refine ⟨by simp, ?_⟩
    simp only [MergeTree.eval, customCreate, List.map_map]
    rfl
  | node l r ihl ihr =>
    intro xs h
    simp only [MergeTree.leaves] at h
    obtain ⟨x1, x2, rfl, h1, h2⟩ := List.map_eq_append_iff.mp h.symm
    obtain ⟨n1, e1⟩ := ihl x1 h1.symm
    obtain ⟨n2, e2⟩ := ihr x2 h2.symm
    refine ⟨by simp [n1], ?_⟩
    simp only [MergeTree.eval]
    rw [e1, e2]
    unfold customMerge
    dsimp only
    rw [mergeEach_gen, List.length_append]
    congr 1
    apply List.map_congr_left
    intro q hq
    exact total_append _ _ (hassoc q hq) n1 n2

theorem combined_gen {z : List (CustomClass V A O × Params × List (ℝ × ℝ))}
    (hassoc : ∀ q ∈ z, ∀ a b d, q.1.merge q.2.1 (q.1.merge q.2.1 a b) d = q.1.merge q.2.1 a (q.1.merge q.2.1 b d))
    (hcomm : ∀ q ∈ z, ∀ a b, q.1.merge q.2.1 a b = q.1.merge q.2.1 b a) {l : List (K × List V)} {out : List (K × ℕ × List A)}
    (hC : IsCombine (customMerge (z.map readyGen)) (l.map fun e => (e.1, customCreate (z.map readyGen) e.2)) out) :
    ∀ e ∈ out, e.2 = ((valuesOf e.1 l).length, z.map fun q => q.1.total q.2.1 (valuesOf e.1 l)) := by
  intro e he
  obtain ⟨t, h1, h2⟩ := hC.values e he
  rw [valuesOf_map_values] at h1
  obtain ⟨ys, h3, h4⟩ := Histogram.perm_map_exists _ h1
  obtain ⟨-, h5⟩ := tree_gen hassoc t ys h4
  rw [h2, h5, h3.length_eq]
  congr 1
  apply List.map_congr_left
  intro q hq
  exact total_perm _ _ (hassoc q hq) (hcomm q hq) h3

/-- `eps` and `delta` at the positions `is`. -/
def BudgetsAre (s : Specs) : List ℕ → List (ℝ × ℝ) → Prop :=
  List.Forall₂ fun i b => computed (s i).eps = .ok b.1 ∧ computed (s i).delta = .ok b.2

theorem readBudgets_inv {s : Specs} {is : List ℕ} : ∀ {bs}, readBudgets s is = .ok bs → BudgetsAre s is bs := by
  induction is with
  | nil =>
    intro bs h
    cases h
    exact List.Forall₂.nil
  | cons i is ih =>
    intro bs h
    rw [readBudgets] at h
    split at h
    · rename_i e d l h1 h2 h3
      cases h
      exact List.Forall₂.cons ⟨h1, h2⟩ (ih h3)
    all_goals cases h

theorem readyAll_inv {cls : ℕ → CustomClass V A O} {s : Specs} {st : Store} {os : List ℕ} : ∀ {cs : List (ReadyCombiner V A O)},
    os.mapM (ready cls s st) = .ok cs → ∃ z : List (CustomClass V A O × Params × List (ℝ × ℝ)), cs = z.map readyGen ∧
      List.Forall₂ (fun o q => q.1 = cls o ∧ ∃ is, st o = some (q.2.1, is) ∧ BudgetsAre s is q.2.2) os z := by
  induction os with
  | nil =>
    intro cs h
    rw [List.mapM_nil] at h
    cases h
    exact ⟨[], rfl, List.Forall₂.nil⟩
  | cons o os ih =>
    intro cs h
    obtain h := mapM_inv h
    cases h with
    | cons h1 h2 =>
    rename_i r rs
    have h2' : os.mapM (ready cls s st) = .ok rs := by
      clear h1 ih h
      induction h2 with
      | nil => rfl
      | cons a _ ih => rw [List.mapM_cons, a, ih]; rfl
    obtain ⟨z, rfl, hz⟩ := ih h2'
    unfold ready at h1
    cases ho : st o with
    | none => rw [ho] at h1; cases h1
    | some q =>
      obtain ⟨p, is⟩ := q
      rw [ho] at h1
      dsimp only at h1
      rcases hb : readBudgets s is with e | bs
      · rw [hb] at h1; cases h1
      · rw [hb] at h1
        cases h1
        exact ⟨(cls o, p, bs) :: z, rfl, List.Forall₂.cons ⟨rfl, is, ho, readBudgets_inv hb⟩ hz⟩

/-- The lists of values of the partition `k`: the bounded values of every privacy id in it, and an empty list for every time that
the public partitions contain it. -/
def listsOf (pub : Option (List K)) (en : List ((P × K) × List V)) (k : K) : List (List V) :=
  ((en.filter fun e => e.1.2 = k).map Prod.snd) ++
    match pub with
    | some ps => (ps.filter fun k' => k' = k).map fun _ => []
    | none => []

theorem valuesOf_lists (pub : Option (List K)) (en : List ((P × K) × List V)) (k : K) :
    valuesOf k (lists pub en) = listsOf pub en k := by
  have h1 : valuesOf k (en.map fun e => (e.1.2, e.2)) = (en.filter fun e => e.1.2 = k).map Prod.snd := by
    induction en with
    | nil => rfl
    | cons e en ih =>
      rw [List.map_cons, valuesOf_cons, ih]
      by_cases h : e.1.2 = k
      · rw [List.filter_cons_of_pos (by simpa using h), if_pos (by simpa using h)]; rfl
      · rw [List.filter_cons_of_neg (by simpa using h), if_neg (by simpa using h)]
  unfold lists listsOf addEmptyPublic
  cases pub with
  | none =>
    rw [List.append_nil]
    exact h1
  | some ps =>
    dsimp only
    rw [valuesOf_append, h1]
    congr 1
    induction ps with
    | nil => rfl
    | cons k' ps ih =>
      rw [List.map_cons, valuesOf_cons, ih]
      by_cases h : k' = k
      · rw [List.filter_cons_of_pos (by simpa using h), if_pos (by simpa using h)]; rfl
      · rw [List.filter_cons_of_neg (by simpa using h), if_neg (by simpa using h)]

theorem accumulators_made (B : Backend) (hB : B.Lawful) (p : Params) (hp : p.BoundsValid) (sampling : Bool) (create : List V → A)
    (pub : Option (List K)) (col : List (P × K × V)) :
    ∃ en : List ((P × K) × List V), BoundedEntries p sampling (dropPartitions p pub col) en ∧
      accumulators B p sampling create pub col = .ok ((lists pub en).map fun e => (e.1, create e.2)) := by
  cases he : p.boundsEnforced with
  | true =>
    refine ⟨(dropPartitions p pub col).map fun r => ((r.1, r.2.1), [r.2.2]),
      ⟨fun _ => rfl, fun h => absurd (he.symm.trans h) (by decide)⟩, ?_⟩
    rw [← addEmptyPublic_map]
    simp [accumulators, dataAccumulators, he, bind, Except.bind, pure, Except.pure, Function.comp_def]
  | false =>
    obtain ⟨b, hb, kept, k1, k2, k3⟩ := run_kept B hB p hp he sampling create (dropPartitions p pub col)
    refine ⟨kept, ⟨fun h => absurd (he.symm.trans h) (by decide), fun _ => ⟨k2, k3⟩⟩, ?_⟩
    rw [← addEmptyPublic_map]
    simp [accumulators, dataAccumulators, he, hb, bind, Except.bind, pure, Except.pure, k1, Function.comp_def]

theorem evalCustom_inv {cls : ℕ → CustomClass V A O} {s : Specs} {st : Store} {env : Env K} (henv : env.Lawful) {pid : R → P}
    {sel : Option ℕ} {data : List R} {c : CustomCall R K V} (hb : c.params.BoundsValid) {x}
    (hx : evalCustom cls s st env pid sel data c = .ok x) :
    ∃ (z : List (CustomClass V A O × Params × List (ℝ × ℝ))) (en : List ((P × K) × List V)) (out : List (K × ℕ × List A)),
      List.Forall₂ (fun o q => q.1 = cls o ∧ ∃ is, st o = some (q.2.1, is) ∧ BudgetsAre s is q.2.2) c.combiners z ∧
      BoundedEntries c.params (c.sampling cls) (dropPartitions c.params c.partitions (c.rows pid data)) en ∧
      IsCombine (customMerge (z.map readyGen)) ((lists c.partitions en).map fun e => (e.1, customCreate (z.map readyGen) e.2)) out ∧
      List.Forall₂ (fun e y => y.key = e.1 ∧ customGate s c.params sel e.2.1 = .ok y.gate ∧
        y.outputs = customCompute (z.map readyGen) e.2) out x := by
  unfold evalCustom at hx
  rcases hr : c.combiners.mapM (ready cls s st) with e | cs
  · rw [hr] at hx; cases hx
  · rw [hr] at hx
    dsimp only at hx
    obtain ⟨z, rfl, hz⟩ := readyAll_inv hr
    obtain ⟨en, hen, ha⟩ := accumulators_made env.backend henv.backend c.params hb (c.sampling cls) (customCreate (z.map readyGen))
      c.partitions (c.rows pid data)
    rw [ha] at hx
    dsimp only at hx
    refine ⟨z, en, _, hz, hen, henv.combine _ _, (mapM_inv hx).imp ?_⟩
    intro e y h
    split at h
    · cases h
    · rename_i g hg
      cases h
      exact ⟨rfl, hg, rfl⟩

theorem lists_keys (pub : Option (List K)) (en : List ((P × K) × List V)) (k : K) :
    k ∈ (lists pub en).map Prod.fst ↔ k ∈ en.map (fun e => e.1.2) ∨ ∃ ps, pub = some ps ∧ k ∈ ps := by
  unfold lists addEmptyPublic
  cases pub with
  | none => simp
  | some ps => simp

/-- **C74** (what is released).  When a call with custom combiners is evaluated, the partitions that may be released are the
public ones and those with (bounded) data, each once.  A partition gets the tuple of the results of the combiners in the order of the
list; each one computes with its fields and budgets from its accumulators of the lists of values of the partition, one list per
privacy id (one per row if the caller has already bounded the contributions), merged in any order.  Without private partition
selection it is released; otherwise the decision gets the number of lists, divided by the number of rows that one id may have. -/
theorem C74_outputs (cls : ℕ → CustomClass V A O) (s : Specs) (st : Store) (env : Env K) (henv : env.Lawful) (pid : R → P)
    (sel : Option ℕ) (data : List R) (c : CustomCall R K V) (hb : c.params.BoundsValid)
    (hm : ∀ o ∈ c.combiners, ∀ p is, st o = some (p, is) → (∀ a b, (cls o).merge p a b = (cls o).merge p b a) ∧
      ∀ a b d, (cls o).merge p ((cls o).merge p a b) d = (cls o).merge p a ((cls o).merge p b d)) {x}
    (hx : evalCustom cls s st env pid sel data c = .ok x) :
    ∃ en : List ((P × K) × List V),
      BoundedEntries c.params (c.sampling cls) (dropPartitions c.params c.partitions (c.rows pid data)) en ∧
      (x.map CustomCandidate.key).Nodup ∧
      (∀ k, k ∈ x.map CustomCandidate.key ↔ k ∈ en.map (fun e => e.1.2) ∨ ∃ ps, c.partitions = some ps ∧ k ∈ ps) ∧
      ∀ y ∈ x,
        (y.outputs.length = c.combiners.length ∧ ∀ (i : ℕ) (o : ℕ), c.combiners[i]? = some o →
          ∃ p is bs, st o = some (p, is) ∧ BudgetsAre s is bs ∧
            y.outputs[i]? = some ((cls o).compute p bs ((cls o).total p (listsOf c.partitions en y.key)))) ∧
        c.params.postThresholding = false ∧ (sel = none → y.gate = .always) ∧
        ∀ i, sel = some i → ∃ e d l0 m, BudgetsAre s [i] [(e, d)] ∧ c.params.maxPartitions = some l0 ∧
          (c.params.boundsEnforced = false → m = 1) ∧
          (c.params.boundsEnforced = true → (c.params.maxContributions.getD 0 ≠ 0 → c.params.maxContributions = some m) ∧
            (c.params.maxContributions.getD 0 = 0 → c.params.maxPerPartition = some m)) ∧
          y.gate = .select c.params.strategy e d l0 c.params.preThreshold
            (((listsOf c.partitions en y.key).length + m - 1) / m) := by
  obtain ⟨z, en, out, hz, hen, hC, hf⟩ := evalCustom_inv henv hb hx
  have hlaw : ∀ q ∈ z, (∀ a b, q.1.merge q.2.1 a b = q.1.merge q.2.1 b a) ∧
      ∀ a b d, q.1.merge q.2.1 (q.1.merge q.2.1 a b) d = q.1.merge q.2.1 a (q.1.merge q.2.1 b d) := by
    intro q hq
    obtain ⟨o, ho, h1, is, h2, -⟩ := forall₂_mem hz hq
    rw [h1]
    exact hm o ho q.2.1 is h2
  have hT := combined_gen (fun q hq => (hlaw q hq).2) (fun q hq => (hlaw q hq).1) hC
  have hkeys : x.map CustomCandidate.key = out.map Prod.fst := forall₂_map hf Prod.fst CustomCandidate.key fun a b h => h.1
  refine ⟨en, hen, by rw [hkeys]; exact hC.nodup, fun k => ?_, fun y hy => ?_⟩
  · rw [hkeys, hC.keys, List.map_map]
    exact lists_keys c.partitions en k
  · obtain ⟨e, he, h1, h2, h3⟩ := forall₂_mem hf hy
    have hT := hT e he
    rw [valuesOf_lists, ← h1] at hT
    rw [hT] at h2 h3
    rw [customCompute_gen] at h3
    refine ⟨⟨by rw [h3, List.length_map, hz.length_eq], fun i o hi => ?_⟩, ?_⟩
    · have hil : i < c.combiners.length := by
        by_contra h
        rw [List.getElem?_eq_none (not_lt.mp h)] at hi
        cases hi
      have hiz : i < z.length := by rw [← hz.length_eq]; exact hil
      obtain ⟨g1, is, g2, g3⟩ := List.Forall₂.get hz hil hiz
      have ho : c.combiners.get ⟨i, hil⟩ = o := by
        rw [List.getElem?_eq_getElem hil] at hi
        exact Option.some.inj hi
      rw [ho] at g1 g2
      refine ⟨_, is, _, g2, g3, ?_⟩
      rw [h3, List.getElem?_map, List.getElem?_eq_getElem hiz, ← g1]
      rfl
    · dsimp only at h2
      unfold customGate at h2
      by_cases hp : c.params.postThresholding = true
      · rw [if_pos hp] at h2; cases h2
      · rw [if_neg hp] at h2
        refine ⟨by simpa using hp, ?_, ?_⟩
        · rintro rfl
          exact (Except.ok.inj h2).symm
        · rintro i rfl
          dsimp only at h2
          rcases hmr : maxRowsPerId c.params with err | m
          · rw [hmr] at h2; cases h2
          · rw [hmr] at h2
            cases hl : c.params.maxPartitions with
            | none => rw [hl] at h2; cases h2
            | some l0 =>
              rw [hl] at h2
              simp only [natArg, selectGate] at h2
              rcases he : computed (s i).eps with err | e1
              · rw [he] at h2; cases h2
              · rcases hd : computed (s i).delta with err | d1
                · rw [he, hd] at h2; cases h2
                · rw [he, hd] at h2
                  refine ⟨e1, d1, l0, m, List.Forall₂.cons ⟨he, hd⟩ List.Forall₂.nil, rfl, ?_, ?_, (Except.ok.inj h2).symm⟩
                  · intro hbe
                    unfold maxRowsPerId at hmr
                    rw [hbe] at hmr
                    exact (Except.ok.inj hmr).symm
                  · intro hbe
                    unfold maxRowsPerId at hmr
                    rw [hbe, if_pos rfl] at hmr
                    constructor
                    · intro hmc
                      rw [if_pos hmc] at hmr
                      cases hc : c.params.maxContributions with
                      | none => rw [hc] at hmr; cases hmr
                      | some v => rw [hc] at hmr; exact congrArg some (Except.ok.inj hmr)
                    · intro hmc
                      rw [if_neg (by simpa using hmc)] at hmr
                      cases hc : c.params.maxPerPartition with
                      | none => rw [hc] at hmr; cases hmr
                      | some v => rw [hc] at hmr; exact congrArg some (Except.ok.inj hmr)

/-! ### Steps without custom combiners -/

/-- **C74** (steps without custom combiners).  Pipelines without custom combiners are those of C73: the same plan and the same
evaluation. -/
theorem C74_steps_only (fmt : ℚ → String) (cls : ℕ → CustomClass V A O) (sigma : ℝ → ℝ → ℝ → ℝ) (s : Specs) (st : Store)
    (env : ℕ → Env K) (pid : R → P) (data : List R) (cs : List (Step R K)) :
    (∀ rs, planX cls fmt rs st (cs.map XStep.step) = match planSteps fmt rs cs with
      | .error e => .error e
      | .ok (bs, ops) => .ok (bs.map BuiltX.step, ops, st)) ∧
    ∀ j rs bs ops, planSteps fmt rs cs = .ok (bs, ops) →
      evalX cls sigma s st env pid data j (cs.map XStep.step) (bs.map BuiltX.step)
        = match evalSteps sigma s env pid data j cs bs with
          | .error e => .error e
          | .ok L => .ok (L.map fun l => (l, [])) := by
  constructor
  · induction cs with
    | nil => intro rs; rfl
    | cons c cs ih =>
      intro rs
      cases c with
      | call c =>
        simp only [List.map_cons, planX, buildX, buildStep, planSteps]
        rcases build fmt rs c with ⟨e | b, rs'⟩
        · rfl
        · dsimp only
          rw [ih]
          rcases planSteps fmt rs' cs with e | ⟨bs, ops⟩ <;> rfl
      | noise p f =>
        simp only [List.map_cons, planX, buildX, buildStep, planSteps]
        rcases mkSens (p.l0.map fun x : ℚ => (x : ℝ)) (p.linf.map fun x : ℚ => (x : ℝ)) none none with e | sens
        · rfl
        · dsimp only
          rw [ih]
          rcases planSteps fmt (requestBudget rs p.kind.mechanism 1).2 cs with e | ⟨bs, ops⟩ <;> rfl
  · induction cs with
    | nil =>
      intro j rs bs ops h
      simp only [planSteps, Except.ok.injEq, Prod.mk.injEq] at h
      obtain ⟨rfl, rfl⟩ := h
      rfl
    | cons c cs ih =>
      intro j rs bs ops h
      cases c with
      | call c =>
        rw [planSteps] at h
        rcases hx : build fmt rs c with ⟨e | b, rs'⟩
        · rw [hx] at h; cases h
        · rw [hx] at h
          dsimp only at h
          rcases hp : planSteps fmt rs' cs with e | ⟨bs', ops'⟩
          · rw [hp] at h; cases h
          · rw [hp] at h
            simp only [Except.ok.injEq, Prod.mk.injEq] at h
            obtain ⟨rfl, rfl⟩ := h
            simp only [List.map_cons, evalX, evalXStep, evalStep, evalSteps, ih (j + 1) _ _ _ hp]
            rcases evalCall sigma s (env j) pid b data c with e | x
            · rfl
            · rcases evalSteps sigma s env pid data (j + 1) cs bs' with e | y <;> rfl
      | noise p f =>
        rw [planSteps] at h
        rcases hm : mkSens (p.l0.map fun x : ℚ => (x : ℝ)) (p.linf.map fun x : ℚ => (x : ℝ)) none none with e | sens
        · rw [hm] at h; cases h
        · rw [hm] at h
          dsimp only at h
          rcases hp : planSteps fmt (requestBudget rs p.kind.mechanism 1).2 cs with e | ⟨bs', ops'⟩
          · rw [hp] at h; cases h
          · rw [hp] at h
            simp only [Except.ok.injEq, Prod.mk.injEq] at h
            obtain ⟨rfl, rfl⟩ := h
            simp only [List.map_cons, evalX, evalXStep, evalStep, evalSteps, ih (j + 1) _ _ _ hp]
            rcases noiseColumn sigma s (requestBudget rs p.kind.mechanism 1).1 sens (f data) with e | x
            · rfl
            · rcases evalSteps sigma s env pid data (j + 1) cs bs' with e | y <;> rfl

/-! ### Nothing is left out -/

theorem custom_cover {cls : ℕ → CustomClass V A O} (pid : R → P) (data : List R) {c : CustomCall R K V} (hc : c.Supported cls)
    {s : Specs} {st : Store} {env : Env K} (henv : env.Lawful) {sel : Option ℕ} {data' : List R} (hd : ∀ r ∈ data', r ∈ data) {x}
    (hx : evalCustom cls s st env pid sel data' c = .ok x) :
    (x.map CustomCandidate.key).Nodup ∧ ∀ y ∈ x, y.key ∈ c.partitions.getD [] ++ data.map c.key ∧
      y.outputs.length ≤ c.combiners.length := by
  obtain ⟨z, en, out, hz, hen, hC, hf⟩ := evalCustom_inv henv hc.bounds hx
  have hkeys : x.map CustomCandidate.key = out.map Prod.fst := forall₂_map hf Prod.fst CustomCandidate.key fun a b h => h.1
  refine ⟨by rw [hkeys]; exact hC.nodup, fun y hy => ⟨?_, ?_⟩⟩
  · have hk : y.key ∈ out.map Prod.fst := by rw [← hkeys]; exact List.mem_map_of_mem hy
    rw [hC.keys, List.map_map] at hk
    rcases (lists_keys c.partitions en y.key).mp hk with h | ⟨ps, h1, h2⟩
    · apply List.mem_append_right
      obtain ⟨e, he, h2⟩ := List.mem_map.mp h
      obtain ⟨r, hr, -, h3⟩ := hen.mem_data e he
      obtain ⟨r', hr', rfl⟩ := List.mem_map.mp ((dropPartitions_sublist c.params c.partitions (c.rows pid data')).subset hr)
      exact List.mem_map.mpr ⟨r', hd r' hr', by rw [← h2, ← h3]⟩
    · apply List.mem_append_left
      rw [h1]; exact h2
  · obtain ⟨e, -, -, -, h3⟩ := forall₂_mem hf hy
    rw [h3, customCompute, List.length_zipWith, List.length_map, hz.length_eq]
    exact min_le_left _ _

theorem x_cover (fmt : ℚ → String) (lib : Library) (cls : ℕ → CustomClass V A O) (o0 : O) (pid : R → P)
    (data : List R) (u : P) (cs : List (XStep R K V)) (hs : ∀ c ∈ cs, c.SupportedAny cls) (hu : ∀ c ∈ cs, c.Promised pid data u)
    {st bs ops st'} (hp : planX cls fmt [] st cs = .ok (bs, ops, st')) :
    ∃ (U : Finset (ℕ × K)) (S : Finset (ℕ × ℕ)) (T : Finset ℕ), ∀ (s : Specs) (env : ℕ → Env K), (∀ j, (env j).Lawful) →
      ∀ data' : List R, data' = data ∨ data' = (data.filter fun r => pid r ≠ u) →
      ∀ L, evalX cls lib.sigma s st' env pid data' 0 cs bs = .ok L →
      ∀ j, (∀ c ∈ (L.map Prod.fst).getD j [], (j, c.key) ∈ U ∧ decisionLaw lib ((L.map Prod.fst).getD j []) c.key = c.gate.law lib ∧
          ∀ n ∈ c.numbers, (n.spec, n.comp) ∈ S ∧ numberLaw ((L.map Prod.fst).getD j []) c.key (n.spec, n.comp) = n.law) ∧
        ∀ c ∈ (L.map Prod.snd).getD j [], (j, c.key) ∈ U ∧ customDecision lib ((L.map Prod.snd).getD j []) c.key = c.gate.law lib ∧
          ∀ (i : ℕ) (μ : Measure O), c.outputs[i]? = some μ → i ∈ T ∧ customOutput o0 ((L.map Prod.snd).getD j []) c.key i = μ := by
  have key : ∀ (cs : List (XStep R K V)) (j0 : ℕ) (rs : List Request) (st : Store) (bs ops st2), (∀ c ∈ cs, c.SupportedAny cls) →
      (∀ c ∈ cs, c.Promised pid data u) → planX cls fmt rs st cs = .ok (bs, ops, st2) →
      ∃ (U : Finset (ℕ × K)) (S : Finset (ℕ × ℕ)) (T : Finset ℕ), ∀ (s : Specs) (env : ℕ → Env K), (∀ j, (env j).Lawful) →
      ∀ data' : List R, data' = data ∨ data' = (data.filter fun r => pid r ≠ u) →
      ∀ L, evalX cls lib.sigma s st' env pid data' j0 cs bs = .ok L →
      ∀ j, (∀ c ∈ (L.map Prod.fst).getD j [], (j0 + j, c.key) ∈ U ∧ decisionLaw lib ((L.map Prod.fst).getD j []) c.key = c.gate.law lib ∧
          ∀ n ∈ c.numbers, (n.spec, n.comp) ∈ S ∧ numberLaw ((L.map Prod.fst).getD j []) c.key (n.spec, n.comp) = n.law) ∧
        ∀ c ∈ (L.map Prod.snd).getD j [], (j0 + j, c.key) ∈ U ∧ customDecision lib ((L.map Prod.snd).getD j []) c.key = c.gate.law lib ∧
          ∀ (i : ℕ) (μ : Measure O), c.outputs[i]? = some μ → i ∈ T ∧ customOutput o0 ((L.map Prod.snd).getD j []) c.key i = μ := by
    intro cs
    induction cs with
    | nil =>
      intro j0 rs st bs ops st2 _ _ h
      refine ⟨∅, ∅, ∅, fun s env _ data' _ L hL j => ?_⟩
      have : L = [] := by
        unfold evalX at hL
        exact (Except.ok.inj hL).symm
      subst this
      simp
    | cons c cs ih =>
      intro j0 rs st bs ops st2 hs hu h
      rw [planX] at h
      rcases hb : buildX cls fmt rs st c with e | ⟨b, rs1, ops1, st1⟩
      · rw [hb] at h; cases h
      · rw [hb] at h
        dsimp only at h
        rcases hp : planX cls fmt rs1 st1 cs with e | ⟨bs', ops', st3⟩
        · rw [hp] at h; cases h
        · rw [hp] at h
          simp only [Except.ok.injEq, Prod.mk.injEq] at h
          obtain ⟨rfl, rfl, rfl⟩ := h
          obtain ⟨U', S', T', ih⟩ := ih (j0 + 1) rs1 st1 bs' ops' st3 (fun c hc => hs c (by simp [hc])) (fun c hc => hu c (by simp [hc])) hp
          -- one step
          obtain ⟨U, S, T, one⟩ : ∃ (U : Finset (ℕ × K)) (S : Finset (ℕ × ℕ)) (T : Finset ℕ), ∀ (s : Specs) (env : ℕ → Env K),
              (∀ j, (env j).Lawful) → ∀ data' : List R, data' = data ∨ data' = (data.filter fun r => pid r ≠ u) →
              ∀ x, evalXStep cls lib.sigma s st' (env j0) pid data' c b = .ok x →
              (∀ c ∈ x.1, (j0, c.key) ∈ U ∧ decisionLaw lib x.1 c.key = c.gate.law lib ∧
                ∀ n ∈ c.numbers, (n.spec, n.comp) ∈ S ∧ numberLaw x.1 c.key (n.spec, n.comp) = n.law) ∧
              ∀ c ∈ x.2, (j0, c.key) ∈ U ∧ customDecision lib x.2 c.key = c.gate.law lib ∧
                ∀ (i : ℕ) (μ : Measure O), c.outputs[i]? = some μ → i ∈ T ∧ customOutput o0 x.2 c.key i = μ := by
            have hc := hs c (by simp)
            have hcu := hu c (by simp)
            cases c with
            | step c =>
              simp only [buildX] at hb
              rcases hx : buildStep fmt rs c with e | ⟨b', rs2, ops2⟩
              · rw [hx] at hb; cases hb
              · rw [hx] at hb
                simp only [Except.ok.injEq, Prod.mk.injEq] at hb
                obtain ⟨rfl, rfl, rfl, rfl⟩ := hb
                obtain ⟨hp1, new, -, -, hrq, -⟩ := buildStep_spec ((show c.SupportedAny from hc)) hx
                obtain ⟨U, S, h1⟩ := steps_cover fmt lib pid data u [c] j0 rs [b'] ops2 (by simpa using (show c.SupportedAny from hc))
                  (by simpa using (show c.Promised pid data u from hcu)) hp1
                refine ⟨U, S, ∅, fun s env henv data' hd x hx => ?_⟩
                simp only [evalXStep] at hx
                rcases he : evalStep lib.sigma s (env j0) pid data' c b' with e | y
                · rw [he] at hx; cases hx
                · rw [he] at hx
                  cases hx
                  have hL : evalSteps lib.sigma s env pid data' j0 [c] [b'] = .ok [y] := by
                    cases c with
                    | call c =>
                      cases b' with
                      | noise i sens => exact hrq.elim
                      | call b' =>
                        simp only [evalStep] at he
                        simp only [evalSteps, he]
                    | noise p f =>
                      cases b' with
                      | call b' => exact hrq.elim
                      | noise i sens =>
                        simp only [evalStep] at he
                        simp only [evalSteps, he]
                  exact ⟨h1 s env henv data' hd [y] hL 0, by simp⟩
            | custom c =>
              obtain ⟨l, st4, sel, new, h1, -⟩ := buildCustom_eq cls rs st c (CustomCall.Supported.nonempty hc)
              simp only [buildX, h1, Except.ok.injEq, Prod.mk.injEq] at hb
              obtain ⟨rfl, rfl, rfl, rfl⟩ := hb
              refine ⟨((c.partitions.getD [] ++ data.map c.key).map fun k => (j0, k)).toFinset, ∅, Finset.range c.combiners.length,
                fun s env henv data' hd x hx => ?_⟩
              simp only [evalXStep] at hx
              rcases he : evalCustom cls s st' (env j0) pid sel data' c with e | y
              · rw [he] at hx; cases hx
              · rw [he] at hx
                cases hx
                obtain ⟨g1, g2⟩ := custom_cover pid data (show c.Supported cls from hc) (henv j0) (by
                  rcases hd with rfl | rfl
                  · exact fun r hr => hr
                  · exact fun r hr => (List.mem_filter.mp hr).1) he
                refine ⟨by simp, fun c' hc' => ?_⟩
                have hf : y.find? (fun c => c.key = c'.key) = some c' := find_unique CustomCandidate.key g1 hc'
                refine ⟨?_, ?_, fun i μ hi => ⟨?_, ?_⟩⟩
                · rw [List.mem_toFinset]
                  exact List.mem_map.mpr ⟨c'.key, (g2 c' hc').1, rfl⟩
                · simp only [customDecision, hf]
                · rw [Finset.mem_range]
                  refine lt_of_lt_of_le ?_ (g2 c' hc').2
                  by_contra h
                  rw [List.getElem?_eq_none (not_lt.mp h)] at hi
                  cases hi
                · simp only [customOutput, hf]
                  rw [List.getD_eq_getElem?_getD, hi]; rfl
          refine ⟨U ∪ U', S ∪ S', T ∪ T', fun s env henv data' hd L hL j => ?_⟩
          simp only [evalX] at hL
          rcases h1 : evalXStep cls lib.sigma s st' (env j0) pid data' c b with e | x
          · rw [h1] at hL; cases hL
          · rw [h1] at hL
            dsimp only at hL
            rcases h2 : evalX cls lib.sigma s st' env pid data' (j0 + 1) cs bs' with e | L'
            · rw [h2] at hL; cases hL
            · rw [h2] at hL
              cases hL
              cases j with
              | zero =>
                obtain ⟨o1, o2⟩ := one s env henv data' hd x h1
                refine ⟨fun c hc => ?_, fun c hc => ?_⟩
                · obtain ⟨a1, a2, a3⟩ := o1 c hc
                  exact ⟨Finset.mem_union_left _ a1, a2, fun n hn => ⟨Finset.mem_union_left _ (a3 n hn).1, (a3 n hn).2⟩⟩
                · obtain ⟨a1, a2, a3⟩ := o2 c hc
                  exact ⟨Finset.mem_union_left _ a1, a2, fun i μ hi => ⟨Finset.mem_union_left _ (a3 i μ hi).1, (a3 i μ hi).2⟩⟩
              | succ j =>
                obtain ⟨o1, o2⟩ := ih s env henv data' hd L' h2 j
                rw [show j0 + (j + 1) = j0 + 1 + j by omega]
                refine ⟨fun c hc => ?_, fun c hc => ?_⟩
                · obtain ⟨a1, a2, a3⟩ := o1 c hc
                  exact ⟨Finset.mem_union_right _ a1, a2, fun n hn => ⟨Finset.mem_union_right _ (a3 n hn).1, (a3 n hn).2⟩⟩
                · obtain ⟨a1, a2, a3⟩ := o2 c hc
                  exact ⟨Finset.mem_union_right _ a1, a2, fun i μ hi => ⟨Finset.mem_union_right _ (a3 i μ hi).1, (a3 i μ hi).2⟩⟩
  obtain ⟨U, S, T, h⟩ := key cs 0 [] st bs ops st' hs hu hp
  refine ⟨U, S, T, fun s env henv data' hd L hL j => ?_⟩
  have := h s env henv data' hd L hL j
  rwa [Nat.zero_add] at this

/-- **C74** (nothing is left out).  For every dataset and privacy id there are finite sets `U` of (step, partition), `S` of labels
and `T` of positions such that on this dataset and on the one without the id, however the computation is executed, every partition
that may be released is in `U`, every number of an own combiner of the engine has its label in `S`, every element of a tuple of custom
combiners its position in `T`, and `observedX` takes decisions, numbers and elements with the distributions with which they are
released. -/
theorem C74_everything_is_observed (fmt : ℚ → String) (lib : Library) (cls : ℕ → CustomClass V A O) (o0 : O) (pid : R → P)
    (data : List R) (u : P) (cs : List (XStep R K V)) (hs : ∀ c ∈ cs, c.Supported cls) (hu : ∀ c ∈ cs, c.Promised pid data u)
    {st bs ops st'} (hp : planX cls fmt [] st cs = .ok (bs, ops, st')) :
    ∃ (U : Finset (ℕ × K)) (S : Finset (ℕ × ℕ)) (T : Finset ℕ), ∀ (s : Specs) (env : ℕ → Env K), (∀ j, (env j).Lawful) →
      ∀ data' : List R, data' = data ∨ data' = (data.filter fun r => pid r ≠ u) →
      ∀ L, evalX cls lib.sigma s st' env pid data' 0 cs bs = .ok L →
      ∀ j, (∀ c ∈ (L.map Prod.fst).getD j [], (j, c.key) ∈ U ∧ decisionLaw lib ((L.map Prod.fst).getD j []) c.key = c.gate.law lib ∧
          ∀ n ∈ c.numbers, (n.spec, n.comp) ∈ S ∧ numberLaw ((L.map Prod.fst).getD j []) c.key (n.spec, n.comp) = n.law) ∧
        ∀ c ∈ (L.map Prod.snd).getD j [], (j, c.key) ∈ U ∧ customDecision lib ((L.map Prod.snd).getD j []) c.key = c.gate.law lib ∧
          ∀ (i : ℕ) (μ : Measure O), c.outputs[i]? = some μ → i ∈ T ∧ customOutput o0 ((L.map Prod.snd).getD j []) c.key i = μ := 
  x_cover fmt lib cls o0 pid data u cs (fun c hc => (hs c hc).any) hu hp

end PDP.EndToEnd
