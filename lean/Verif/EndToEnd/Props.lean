import Verif.EndToEnd.Query

/-!
# A whole pipeline is differentially private (C60)
-/

set_option linter.unusedSectionVars false

namespace PDP.EndToEnd

open PDP PDP.Engine
open PDP.Engine.Mechanism (Additive)
open PDP.Engine.AddNoise (specOf)
open PDP.Budget (State Op MechType)

variable {R P K : Type} [DecidableEq P] [DecidableEq K]

/-! ### The accountant during the pipeline -/

/-- Calls that a pipeline of supported queries makes. -/
def Plain : Op → Prop
  | .request t _ w c n => t = .laplace ∧ 0 < w ∧ c = 1 ∧ n = none
  | .enter w => 0 < w
  | .exit => True
  | .aggregation _ => True
  | _ => False

/-- The request made by a call. -/
def reqOf : Op → Option (MechType × ℤ)
  | .request t _ _ c _ => some (t, c)
  | _ => none

theorem Plain.positive {op : Op} (h : Plain op) : op.Positive := by
  cases op <;> simp_all [Plain, Budget.Op.Positive]

theorem accepted_plain (ops : List Op) (h : ∀ op ∈ ops, Plain op) (s : State) (hs : s.finalized = false) :
    Budget.accepted ops (Budget.run s ops).2 = ops.filterMap reqOf ∧ (Budget.run s ops).1.finalized = false := by
  induction ops generalizing s with
  | nil => exact ⟨rfl, hs⟩
  | cons op ops ih =>
    have hop := h op (by simp)
    have ih' := fun s hs => ih (fun o ho => h o (by simp [ho])) s hs
    cases op with
    | request t sens w c n =>
      obtain ⟨rfl, hw, rfl, rfl⟩ := hop
      have hstep : Budget.step s (.request .laplace sens w 1 none)
          = (Budget.register s ⟨.laplace, sens, w, 1, none, none⟩, .spec s.mechs.length) := by
        simp [Budget.step, Budget.requestBudget, hs]
      have := ih' (Budget.register s ⟨.laplace, sens, w, 1, none, none⟩) hs
      simp only [Budget.run, hstep, Budget.accepted, List.filterMap_cons, reqOf]
      exact ⟨by rw [this.1], this.2⟩
    | enter w =>
      have := ih' (Budget.enterScope s w) hs
      simp only [Budget.run, Budget.step, Budget.accepted, List.filterMap_cons, reqOf]
      exact this
    | exit =>
      have hf : (Budget.exitScope s).1.finalized = false := by
        unfold Budget.exitScope
        split
        · exact hs
        · dsimp only
          split
          · exact hs
          · split
            · exact hs
            · exact hs
      have := ih' _ hf
      simp only [Budget.run, Budget.step, Budget.accepted, List.filterMap_cons, reqOf]
      generalize hx : Budget.exitScope s = x at this ⊢
      rcases x with ⟨s', _ | _⟩ <;> exact this
    | aggregation w =>
      have hf : (Budget.computeBudgetForAggregation s w).1.finalized = false := by
        unfold Budget.computeBudgetForAggregation
        dsimp only
        split
        · exact hs
        · split
          · split <;> exact hs
          · exact hs
      have := ih' _ hf
      simp only [Budget.run, Budget.step, Budget.accepted, List.filterMap_cons, reqOf]
      generalize hx : Budget.computeBudgetForAggregation s w = x at this ⊢
      rcases x with ⟨s', _ | _⟩ <;> exact this
    | compute => exact hop.elim
    | readEps i => exact hop.elim
    | readDelta i => exact hop.elim

/-- What the plan of a pipeline of supported queries looks like. -/
theorem plan_spec {fmt : ℚ → String} {qs : List (Query R K)} (hs : ∀ q ∈ qs, Supported q.params) :
    ∀ {rs : List Request} {ps ops}, plan fmt rs qs = .ok (ps, ops) →
      (∀ op ∈ ops, Plain op) ∧
      ∃ n, ops.filterMap reqOf = List.replicate n (MechType.laplace, (1 : ℤ)) ∧
        ps.flatMap (fun parts => parts.flatMap Part.specs) = List.range' rs.length n := by
  induction qs with
  | nil =>
    intro rs ps ops h
    simp only [plan, Except.ok.injEq, Prod.mk.injEq] at h
    obtain ⟨rfl, rfl⟩ := h
    exact ⟨by simp, 0, by simp, by simp⟩
  | cons q qs ih =>
    intro rs ps ops h
    have hq := hs q (by simp)
    obtain ⟨rs', parts, hcc⟩ : ∃ rs' r, createCompound fmt q.params rs = (r, rs') := ⟨_, _, rfl⟩
    rw [plan, hcc] at h
    rcases parts with e | parts
    · simp at h
    · dsimp only at h
      obtain ⟨new, h1, h2, h3, h4⟩ := C21_each_budget_is_used_once fmt q.params rs parts (by rw [hcc])
      rw [hcc] at h1
      dsimp only at h1
      subst h1
      generalize hp : plan fmt (rs ++ new) qs = r at h
      rcases r with e | ⟨ps', ops'⟩
      · simp at h
      · simp only [Except.ok.injEq, Prod.mk.injEq] at h
        obtain ⟨rfl, rfl⟩ := h
        obtain ⟨g1, n, g2, g3⟩ := ih (fun q hq => hs q (by simp [hq])) hp
        have h5 : ∀ r ∈ new, r.weight = q.params.budgetWeight ∧ toMechType r.mechanism = .laplace := by
          intro r hr
          obtain ⟨w, h | h⟩ := h4 r hr
          · refine ⟨w, ?_⟩
            rw [h, hq.laplace]; rfl
          · rw [hq.noThresholding] at h; simp at h
        refine ⟨?_, new.length + n, ?_, ?_⟩
        · intro op hop
          rcases List.mem_append.mp hop with hop | hop
          · simp only [queryOps, callOps, List.drop_left, List.cons_append, List.mem_cons, List.mem_append, List.mem_map,
              List.not_mem_nil, or_false] at hop
            rcases hop with rfl | ⟨r, hr, rfl⟩ | rfl | rfl
            · exact hq.weight
            · exact ⟨(h5 r hr).2, by rw [(h5 r hr).1]; exact hq.weight, rfl, rfl⟩
            · trivial
            · trivial
          · exact g1 op hop
        · rw [List.filterMap_append, g2, ← List.replicate_append_replicate]
          congr 1
          simp only [queryOps, callOps, List.drop_left, List.filterMap_cons, List.filterMap_append, List.cons_append, reqOf,
            List.filterMap_nil, List.append_nil]
          rw [List.filterMap_map, List.eq_replicate_iff]
          have : new.filterMap (reqOf ∘ fun r => Op.request (toMechType r.mechanism) 1 r.weight 1 none)
              = new.map fun r => (toMechType r.mechanism, (1 : ℤ)) := by
            rw [← List.filterMap_eq_map]; rfl
          rw [this]
          refine ⟨by simp, ?_⟩
          intro b hb
          obtain ⟨r, hr, rfl⟩ := List.mem_map.mp hb
          rw [(h5 r hr).2]
        · rw [List.flatMap_cons, h3, g3, List.length_append, ← List.range'_append_1]

/-! ### All queries -/

theorem density_append (L M : List (Noisy K)) (o : K → ℕ → ℕ → ℝ) : density (L ++ M) o = density L o * density M o := by
  simp [density]

theorem density_nonneg {L : List (Noisy K)} (h : ∀ n ∈ L, ∃ b x, n.mech = .laplace b x ∧ 0 < b) (o) : 0 ≤ density L o := by
  apply prod_nonneg'
  intro n hn
  obtain ⟨b, x, h1, h2⟩ := h n hn
  rw [h1]
  exact laplaceDensity_nonneg h2.le _

theorem all_loss (fmt : ℚ → String) (sigma : ℝ → ℝ → ℝ → ℝ) (s : Specs) (env : ℕ → Env K) (henv : ∀ j, (env j).Lawful)
    (pid : R → P) (ε δ : ℕ → ℝ) (data : List R) (u : P) (qs : List (Query R K)) (hs : ∀ q ∈ qs, Supported q.params)
    (hu : ∀ q ∈ qs, CallerKeepsBounds q.params u (q.rows pid data))
    (hf : ∀ q ∈ qs, q.params.publicFiltered = true → ∀ r ∈ data, q.key r ∈ q.partitions) :
    ∀ (j : ℕ) {rs : List Request} {ps ops}, plan fmt rs qs = .ok (ps, ops) →
      (∀ i ∈ ps.flatMap (fun parts => parts.flatMap Part.specs),
        0 < ε i ∧ s i = ⟨.laplace, none, some (ε i), some (δ i)⟩) →
    ∃ L L', evalAll sigma s env pid data j qs ps = .ok L ∧
      evalAll sigma s env pid (removeId pid u data) j qs ps = .ok L' ∧
      (∀ l, l ∈ L.map Noisy.label ↔ l ∈ released sigma qs ps) ∧
      (L.map Noisy.label).Nodup ∧ (L.map Noisy.label).Perm (L'.map Noisy.label) ∧
      (∀ n, n ∈ L ∨ n ∈ L' → n.spec ∈ ps.flatMap (fun parts => parts.flatMap Part.specs) ∧
        ∃ b x, n.mech = .laplace b x ∧ 0 < b) ∧
      ∀ o, density L o ≤ Real.exp ((ps.flatMap fun parts => parts.flatMap Part.specs).map ε).sum * density L' o ∧
        density L' o ≤ Real.exp ((ps.flatMap fun parts => parts.flatMap Part.specs).map ε).sum * density L o := by
  induction qs with
  | nil =>
    intro j rs ps ops h hε
    simp only [plan, Except.ok.injEq, Prod.mk.injEq] at h
    obtain ⟨rfl, rfl⟩ := h
    exact ⟨[], [], rfl, rfl, by simp [released], by simp, by simp, by simp, by simp [density]⟩
  | cons q qs ih =>
    intro j rs ps ops h hε
    have hplan := plan_spec hs h
    have hq := hs q (by simp)
    obtain ⟨rs', parts, hcc⟩ : ∃ rs' r, createCompound fmt q.params rs = (r, rs') := ⟨_, _, rfl⟩
    rw [plan, hcc] at h
    rcases parts with e | parts
    · simp at h
    · dsimp only at h
      generalize hp : plan fmt rs' qs = r at h
      rcases r with e | ⟨ps', ops'⟩
      · simp at h
      · simp only [Except.ok.injEq, Prod.mk.injEq] at h
        obtain ⟨rfl, rfl⟩ := h
        have hnd : ((parts :: ps').flatMap fun parts => parts.flatMap Part.specs).Nodup := by
          obtain ⟨-, n, -, hn⟩ := hplan
          rw [hn]; exact List.nodup_range'
        rw [List.flatMap_cons] at hε hnd ⊢
        rw [List.nodup_append] at hnd
        obtain ⟨L1, L1', a1, a2, a0, a3, a4, a5, a6⟩ := query_loss sigma s (env j) (henv j) pid q hq parts (parts_ok hq hcc)
          hnd.1 ε δ (fun i hi => hε i (List.mem_append_left _ hi)) data u (hu q (by simp)) (hf q (by simp))
        obtain ⟨L2, L2', b1, b2, b0, b3, b4, b5, b6⟩ := ih (fun q hq => hs q (by simp [hq])) (fun q hq => hu q (by simp [hq]))
          (fun q hq => hf q (by simp [hq])) (j + 1) hp (fun i hi => hε i (List.mem_append_right _ hi))
        refine ⟨L1 ++ L2, L1' ++ L2', ?_, ?_, ?_, ?_, ?_, ?_, ?_⟩
        · simp only [evalAll, a1, b1]
        · simp only [evalAll, a2, b2]
        · intro l
          rw [List.map_append, List.mem_append, a0, b0]
          simp [released]
        · rw [List.map_append, List.nodup_append]
          refine ⟨a3, b3, ?_⟩
          intro x hx y hy hxy
          obtain ⟨n, hn, rfl⟩ := List.mem_map.mp hx
          obtain ⟨m, hm, rfl⟩ := List.mem_map.mp hy
          refine hnd.2.2 _ (a5 n (.inl hn)).1 _ (b5 m (.inl hm)).1 ?_
          exact congrArg (fun l => l.2.1) hxy
        · rw [List.map_append, List.map_append]
          exact a4.append b4
        · intro n hn
          simp only [List.mem_append] at hn ⊢
          rcases hn with (hn | hn) | hn | hn
          · exact ⟨.inl (a5 n (.inl hn)).1, (a5 n (.inl hn)).2⟩
          · exact ⟨.inr (b5 n (.inl hn)).1, (b5 n (.inl hn)).2⟩
          · exact ⟨.inl (a5 n (.inr hn)).1, (a5 n (.inr hn)).2⟩
          · exact ⟨.inr (b5 n (.inr hn)).1, (b5 n (.inr hn)).2⟩
        · intro o
          have n1 := density_nonneg (fun n hn => (a5 n (.inl hn)).2) o
          have n1' := density_nonneg (fun n hn => (a5 n (.inr hn)).2) o
          have n2 := density_nonneg (fun n hn => (b5 n (.inl hn)).2) o
          have n2' := density_nonneg (fun n hn => (b5 n (.inr hn)).2) o
          rw [density_append, density_append, List.map_append, List.sum_append, Real.exp_add]
          constructor
          · calc _ ≤ _ := mul_le_mul (a6 o).1 (b6 o).1 n2 (mul_nonneg (Real.exp_nonneg _) n1')
              _ = _ := by ring
          · calc _ ≤ _ := mul_le_mul (a6 o).2 (b6 o).2 n2' (mul_nonneg (Real.exp_nonneg _) n1)
              _ = _ := by ring

/-! ### The budgets after `compute_budgets` -/

theorem budgets_after {fmt : ℚ → String} {qs : List (Query R K)} (hs : ∀ q ∈ qs, Supported q.params) {ps ops}
    (hp : plan fmt [] qs = .ok (ps, ops)) {e d : ℚ} {num ws s0} (h0 : Budget.init e d num ws = .ok s0)
    (hc : (Budget.step (Budget.run s0 ops).1 .compute).2 = .unit) :
    ∃ ε δ : ℕ → ℝ, (∀ i ∈ ps.flatMap (fun parts => parts.flatMap Part.specs),
        0 < ε i ∧ specOf (Budget.step (Budget.run s0 ops).1 .compute).1 i = ⟨.laplace, none, some (ε i), some (δ i)⟩) ∧
      ((ps.flatMap fun parts => parts.flatMap Part.specs).map ε).sum ≤ (e : ℝ) := by
  obtain ⟨hplain, n, hreq, hspecs⟩ := plan_spec hs hp
  have hs0 : s0.finalized = false := by
    unfold Budget.init at h0
    split_ifs at h0
    cases h0; rfl
  obtain ⟨hacc, -⟩ := accepted_plain ops hplain s0 hs0
  rw [hreq] at hacc
  have hrun : Budget.run s0 (ops ++ [.compute]) = ((Budget.step (Budget.run s0 ops).1 .compute).1,
      (Budget.run s0 ops).2 ++ [.unit]) := by
    rw [Budget.run_append]
    simp only [Budget.run, hc]
  set s := (Budget.step (Budget.run s0 ops).1 .compute).1 with hsdef
  have hacc2 : Budget.accepted (ops ++ [.compute]) (Budget.run s0 (ops ++ [.compute])).2
      = List.replicate n (MechType.laplace, (1 : ℤ)) := by
    have hI := Budget.inv_run (Budget.inv_init h0) ops
    have hI2 := Budget.inv_run (Budget.inv_init h0) (ops ++ [.compute])
    rw [← hacc]
    have : ∀ (ops : List Op) (s0 : State), Budget.accepted (ops ++ [.compute]) (Budget.run s0 (ops ++ [.compute])).2
        = Budget.accepted ops (Budget.run s0 ops).2 := by
      intro ops
      induction ops with
      | nil => intro s0; simp [Budget.run, Budget.accepted]
      | cons op ops ih =>
        intro s0
        simp only [List.cons_append, Budget.run]
        rw [Budget.accepted.eq_def, Budget.accepted.eq_def (op :: ops)]
        dsimp only
        rw [ih]
    exact this ops s0
  have hI := Budget.inv_run (Budget.inv_init h0) (ops ++ [.compute])
  have hms : s.mechs.map (fun m => (m.mtype, m.count)) = List.replicate n (MechType.laplace, (1 : ℤ)) := by
    have := hI.reqs
    rw [List.nil_append, hacc2] at this
    rw [hrun] at this
    exact this
  have hlen : s.mechs.length = n := by
    have := congrArg List.length hms
    simpa using this
  have hmt : ∀ m ∈ s.mechs, m.mtype = .laplace ∧ m.count = 1 := by
    intro m hm
    have : (m.mtype, m.count) ∈ List.replicate n (MechType.laplace, (1 : ℤ)) := by
      rw [← hms]; exact List.mem_map.mpr ⟨m, hm, rfl⟩
    simpa using (List.mem_replicate.mp this).2
  refine ⟨fun i => (((s.mechs[i]?.bind Budget.Mech.eps).getD 0 : ℚ) : ℝ),
    fun i => (((s.mechs[i]?.bind Budget.Mech.delta).getD 0 : ℚ) : ℝ), ?_, ?_⟩
  · intro i hi
    rw [hspecs, List.mem_range'_1] at hi
    have hin : i < n := by simpa using hi.2
    have hget : s.mechs[i]? = some s.mechs[i] := List.getElem?_eq_getElem (by omega)
    obtain ⟨⟨x, hx⟩, ⟨y, hy⟩⟩ := Budget.C03_compute_publishes h0 hc (j := i) (by rw [hacc]; simpa using hin)
    obtain ⟨m, hm, hmx⟩ := Budget.seesEps_iff.mp hx
    obtain ⟨m', hm', hmy⟩ := Budget.seesDelta_iff.mp hy
    rw [← hsdef] at hm hm' hx
    rw [hm] at hm'
    cases hm'
    have hread : Budget.seesEps (Budget.run s0 (ops ++ [.compute])).1 i x := by rw [hrun]; exact hx
    obtain ⟨qs', hql, hq, -⟩ := Budget.C01_epsilon_conserved h0 (by
      intro op hop
      rcases List.mem_append.mp hop with hop | hop
      · exact (hplain op hop).positive
      · simp only [List.mem_singleton] at hop
        subst hop; trivial) hread
    rw [hacc2, List.length_replicate] at hql
    obtain ⟨q1, q2⟩ := hq i (by omega)
    rw [hrun] at q1
    have hxq : x = qs'[i]'(by omega) := by
      have h1 : (Budget.step s (.readEps i)).2 = .value x := hx
      have h2 : (Budget.step s (.readEps i)).2 = .value (qs'[i]'(by omega)) := q1
      rw [h1] at h2
      simpa using h2
    simp only [hm, Option.bind_some, hmx, hmy, Option.getD_some, specOf, Option.map_some]
    refine ⟨?_, ?_⟩
    · rw [hxq]; exact_mod_cast q2
    · rw [(hmt m (List.mem_of_getElem? hm)).1]
  · rw [hspecs]
    simp only [List.length_nil]
    have h1 : ((List.range' 0 n).map fun i => (((s.mechs[i]?.bind Budget.Mech.eps).getD 0 : ℚ) : ℝ))
        = s.mechs.map fun m => ((m.eps.getD 0 : ℚ) : ℝ) := by
      apply List.ext_getElem
      · simp [hlen]
      · intro i h1 h2
        simp only [List.length_map, List.length_range'] at h1 h2
        simp [List.getElem?_eq_getElem h2]
    have hsum : (s.mechs.map fun m => m.eps.getD 0).sum ≤ e := by
      obtain ⟨he, -, -, -⟩ := Budget.init_facts h0
      rcases hI.status with h | ⟨-, hP⟩
      · rw [hrun] at h
        rw [List.sum_eq_zero]
        · exact he.le
        · intro x hx
          obtain ⟨m, hm, rfl⟩ := List.mem_map.mp hx
          simp [(h m hm).1]
      · rw [hrun] at hP
        rcases hP.sumEps with h | h
        · rw [← h]
          apply le_of_eq
          congr 1
          apply List.map_congr_left
          intro m hm
          rw [(hmt m hm).2]; simp
        · rw [List.sum_eq_zero]
          · exact he.le
          · intro x hx
            obtain ⟨m, hm, rfl⟩ := List.mem_map.mp hx
            simp [h m hm]
    rw [h1]
    have h2 : ((s.mechs.map fun m => ((m.eps.getD 0 : ℚ) : ℝ)).sum : ℝ)
        = (((s.mechs.map fun m => m.eps.getD 0).sum : ℚ) : ℝ) := by
      induction s.mechs with
      | nil => simp
      | cons m ms ih => simp [ih]
    rw [h2]
    exact_mod_cast hsum

/-- **C60**.  A pipeline of `aggregate` calls with public partitions and Laplace noise, on one naive accountant with total
budget `e`: removing all rows of one privacy id changes the joint density of everything that is released by a factor of at
most `exp e`, in both directions. -/
theorem C60_pipeline_density_ratio (fmt : ℚ → String) (sigma : ℝ → ℝ → ℝ → ℝ) {e d : ℚ} {num ws s0}
    (h0 : Budget.init e d num ws = .ok s0) (qs : List (Query R K)) (hs : ∀ q ∈ qs, Supported q.params) {ps ops}
    (hp : plan fmt [] qs = .ok (ps, ops)) (hc : (Budget.step (Budget.run s0 ops).1 .compute).2 = .unit)
    (env : ℕ → Env K) (henv : ∀ j, (env j).Lawful) (pid : R → P) (data : List R) (u : P)
    (hu : ∀ q ∈ qs, CallerKeepsBounds q.params u (q.rows pid data))
    (hf : ∀ q ∈ qs, q.params.publicFiltered = true → ∀ r ∈ data, q.key r ∈ q.partitions) :
    let s := specOf (Budget.step (Budget.run s0 ops).1 .compute).1
    ∃ L L', evalAll sigma s env pid data 0 qs ps = .ok L ∧
      evalAll sigma s env pid (removeId pid u data) 0 qs ps = .ok L' ∧
      (∀ l, l ∈ L.map Noisy.label ↔ l ∈ released sigma qs ps) ∧
      (L.map Noisy.label).Nodup ∧ (L.map Noisy.label).Perm (L'.map Noisy.label) ∧
      (∀ n, n ∈ L ∨ n ∈ L' → ∃ b x, n.mech = .laplace b x ∧ 0 < b) ∧
      ∀ o, density L o ≤ Real.exp e * density L' o ∧ density L' o ≤ Real.exp e * density L o := by
  intro s
  obtain ⟨ε, δ, h1, h2⟩ := budgets_after hs hp h0 hc
  obtain ⟨L, L', a1, a2, a0, a3, a4, a5, a6⟩ := all_loss fmt sigma s env henv pid ε δ data u qs hs hu hf 0 hp h1
  refine ⟨L, L', a1, a2, a0, a3, a4, fun n hn => (a5 n hn).2, fun o => ?_⟩
  have n1 := density_nonneg (fun n hn => (a5 n (.inl hn)).2) o
  have n1' := density_nonneg (fun n hn => (a5 n (.inr hn)).2) o
  have he := Real.exp_le_exp.mpr h2
  exact ⟨(a6 o).1.trans (mul_le_mul_of_nonneg_right he n1'), (a6 o).2.trans (mul_le_mul_of_nonneg_right he n1)⟩

end PDP.EndToEnd
