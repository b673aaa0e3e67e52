import Verif.Budget.Lemmas

/-!
# Naive budget accounting: conservation and life cycle (C01, C02, C03)
-/

namespace PDP.Budget

/-- **C01** (positive weights).  In every history of calls on a naive accountant with positive
weights and counts, as soon as one epsilon is visible, every accepted request has a visible positive
epsilon, and the epsilons multiplied by their counts add up to exactly the pipeline epsilon. -/
theorem C01_epsilon_conserved {e d : ℚ} {num ws s0} {ops : List Op}
    (h0 : init e d num ws = .ok s0) (hpos : ∀ op ∈ ops, op.Positive)
    {i q} (hread : seesEps (run s0 ops).1 i q) :
    ∃ qs : List ℚ, qs.length = (accepted ops (run s0 ops).2).length ∧
      (∀ j (hj : j < qs.length), seesEps (run s0 ops).1 j qs[j] ∧ 0 < qs[j]) ∧
      spent (accepted ops (run s0 ops).2) qs = e := by
  have hI := inv_run (inv_init h0) ops
  obtain ⟨he, hd, -, -⟩ := init_facts h0
  have hS := sgnInv_run he hd (sgnInv_init (b := true) h0) ops (fun o ho => (hpos o ho).sgn)
  obtain ⟨m, hm, hq⟩ := seesEps_iff.mp hread
  have hmm := List.mem_of_getElem? hm
  set s := (run s0 ops).1
  rcases hI.status with h | ⟨-, hP⟩
  · rw [(h m hmm).1] at hq; simp at hq
  · refine ⟨s.mechs.map fun m => m.eps.getD 0, ?_, ?_, ?_⟩
    · have := congrArg List.length hI.reqs
      simpa using this
    · intro j hj
      simp only [List.length_map] at hj
      simp only [List.getElem_map]
      obtain ⟨x, hx⟩ := Option.isSome_iff_exists.mp (hP.eps s.mechs[j] (List.getElem_mem hj))
      rw [hx]
      refine ⟨seesEps_iff.mpr ⟨s.mechs[j], List.getElem?_eq_getElem hj, hx⟩, ?_⟩
      simpa [sgn] using hS.eps s.mechs[j] (List.getElem_mem hj) x hx
    · have hr : accepted ops (run s0 ops).2 = s.mechs.map fun m => (m.mtype, m.count) := by
        simpa using hI.reqs.symm
      rw [hr, spent_eq]
      rcases hP.sumEps with h | h
      · exact h
      · have h1 := hS.eps m hmm q hq
        rw [h m hmm] at hq
        simp only [Option.some.injEq] at hq
        subst hq
        simp [sgn] at h1

/-- **C01** (any non-negative weights).  With weights and counts that may be zero, no granted epsilon
is negative and the total consumption is either the pipeline epsilon or zero, so never above it. -/
theorem C01_epsilon_never_exceeded {e d : ℚ} {num ws s0} {ops : List Op}
    (h0 : init e d num ws = .ok s0) (hpos : ∀ op ∈ ops, op.NonNeg)
    {qs : List ℚ} (hlen : qs.length = (accepted ops (run s0 ops).2).length)
    (hread : ∀ j (hj : j < qs.length), seesEps (run s0 ops).1 j qs[j]) :
    (∀ q ∈ qs, 0 ≤ q) ∧ spent (accepted ops (run s0 ops).2) qs ≤ e ∧
      (spent (accepted ops (run s0 ops).2) qs = e ∨ spent (accepted ops (run s0 ops).2) qs = 0) := by
  have hI := inv_run (inv_init h0) ops
  obtain ⟨he, hd, -, -⟩ := init_facts h0
  have hS := sgnInv_run he hd (sgnInv_init (b := false) h0) ops (fun o ho => (hpos o ho).sgn)
  have hr : accepted ops (run s0 ops).2 = (run s0 ops).1.mechs.map fun m => (m.mtype, m.count) := by
    simpa using hI.reqs.symm
  set s := (run s0 ops).1
  have hl : qs.length = s.mechs.length := by rw [hlen, hr]; simp
  have hqs : qs = s.mechs.map fun m => m.eps.getD 0 := by
    apply List.ext_getElem
    · simp [hl]
    · intro j hj hj'
      obtain ⟨m, hm, hq⟩ := seesEps_iff.mp (hread j hj)
      rw [List.getElem_map]
      have : s.mechs[j]? = some s.mechs[j] := List.getElem?_eq_getElem (by omega)
      rw [this] at hm
      simp only [Option.some.injEq] at hm
      rw [hm, hq]; rfl
  have hnn : ∀ q ∈ qs, 0 ≤ q := by
    intro q hq
    obtain ⟨j, hj, rfl⟩ := List.getElem_of_mem hq
    obtain ⟨m, hm, hq⟩ := seesEps_iff.mp (hread j hj)
    simpa [sgn] using hS.eps m (List.mem_of_getElem? hm) _ hq
  have hsum : spent (accepted ops (run s0 ops).2) qs = e ∨
      spent (accepted ops (run s0 ops).2) qs = 0 := by
    rw [hr, hqs, spent_eq]
    rcases hI.status with h | ⟨-, hP⟩
    · right
      apply List.sum_eq_zero
      intro x hx
      obtain ⟨m, hm, rfl⟩ := List.mem_map.mp hx
      simp [(h m hm).1]
    · rcases hP.sumEps with h | h
      · exact .inl h
      · right
        apply List.sum_eq_zero
        intro x hx
        obtain ⟨m, hm, rfl⟩ := List.mem_map.mp hx
        simp [h m hm]
  refine ⟨hnn, ?_, hsum⟩
  rcases hsum with h | h <;> rw [h]
  exact he.le

/-- **C02** (positive weights).  Visible deltas: Laplace mechanisms get 0, every other mechanism gets
a positive share (if the pipeline delta is positive), and deltas multiplied by counts add up to the
pipeline delta as soon as one accepted mechanism can use delta, to 0 otherwise. -/
theorem C02_delta_conserved {e d : ℚ} {num ws s0} {ops : List Op}
    (h0 : init e d num ws = .ok s0) (hpos : ∀ op ∈ ops, op.Positive)
    {i q} (hread : seesDelta (run s0 ops).1 i q) :
    ∃ qs : List ℚ, ∃ hl : qs.length = (accepted ops (run s0 ops).2).length,
      (∀ j (hj : j < qs.length), seesDelta (run s0 ops).1 j qs[j] ∧ 0 ≤ qs[j] ∧
        ((accepted ops (run s0 ops).2)[j].1 = .laplace → qs[j] = 0) ∧
        ((accepted ops (run s0 ops).2)[j].1 ≠ .laplace → 0 < d → 0 < qs[j])) ∧
      spent (accepted ops (run s0 ops).2) qs =
        if ∃ r ∈ accepted ops (run s0 ops).2, r.1 ≠ .laplace then d else 0 := by
  have hI := inv_run (inv_init h0) ops
  obtain ⟨he, hd, -, -⟩ := init_facts h0
  have hS := sgnInv_run he hd (sgnInv_init (b := true) h0) ops (fun o ho => (hpos o ho).sgn)
  obtain ⟨m, hm, hq⟩ := seesDelta_iff.mp hread
  have hmm := List.mem_of_getElem? hm
  have hr : accepted ops (run s0 ops).2 = (run s0 ops).1.mechs.map fun m => (m.mtype, m.count) := by
    simpa using hI.reqs.symm
  set s := (run s0 ops).1
  rcases hI.status with h | ⟨-, hP⟩
  · rw [(h m hmm).2] at hq; simp at hq
  · refine ⟨s.mechs.map fun m => m.delta.getD 0, by rw [hr]; simp, ?_, ?_⟩
    · intro j hj
      simp only [List.length_map] at hj
      have hget : (accepted ops (run s0 ops).2)[j]'(by rw [hr]; simpa using hj)
          = (s.mechs[j].mtype, s.mechs[j].count) := by
        simp only [hr, List.getElem_map]
      simp only [List.getElem_map, hget]
      have hmem := List.getElem_mem hj
      obtain ⟨x, hx⟩ := Option.isSome_iff_exists.mp (hP.delta s.mechs[j] hmem)
      rw [hx]
      refine ⟨seesDelta_iff.mpr ⟨s.mechs[j], List.getElem?_eq_getElem hj, hx⟩, ?_, ?_, ?_⟩
      · exact (hS.delta s.mechs[j] hmem x hx).1
      · intro hl
        have := hP.noDelta _ hmem hl
        rw [hx] at this
        simpa using this
      · intro hl hdp
        exact (hS.delta s.mechs[j] hmem x hx).2 rfl hdp hl
    · rw [hr, spent_eq]
      split_ifs with hex
      · obtain ⟨r, hrm, hrl⟩ := hex
        obtain ⟨m1, hm1, rfl⟩ := List.mem_map.mp hrm
        rcases hP.sumDelta with h | h
        · exact h
        · -- everything zero: then the pipeline delta itself must be zero
          rcases hd.lt_or_eq with hdp | hd0
          · have h2 := (hS.delta m1 hm1 0 (h m1 hm1)).2 rfl hdp hrl
            exact absurd h2 (lt_irrefl _)
          · rw [← hd0]
            apply List.sum_eq_zero
            intro x hx
            obtain ⟨m, hm, rfl⟩ := List.mem_map.mp hx
            simp [h m hm]
      · apply List.sum_eq_zero
        intro x hx
        obtain ⟨m, hm, rfl⟩ := List.mem_map.mp hx
        have hl : m.mtype = .laplace := by
          by_contra hne
          exact hex ⟨_, List.mem_map_of_mem hm, hne⟩
        simp [hP.noDelta m hm hl]

/-- **C02** (any non-negative weights).  Deltas are never negative and consumption never exceeds the
pipeline delta. -/
theorem C02_delta_never_exceeded {e d : ℚ} {num ws s0} {ops : List Op}
    (h0 : init e d num ws = .ok s0) (hpos : ∀ op ∈ ops, op.NonNeg)
    {qs : List ℚ} (hlen : qs.length = (accepted ops (run s0 ops).2).length)
    (hread : ∀ j (hj : j < qs.length), seesDelta (run s0 ops).1 j qs[j]) :
    (∀ q ∈ qs, 0 ≤ q) ∧ spent (accepted ops (run s0 ops).2) qs ≤ d := by
  have hI := inv_run (inv_init h0) ops
  obtain ⟨he, hd, -, -⟩ := init_facts h0
  have hS := sgnInv_run he hd (sgnInv_init (b := false) h0) ops (fun o ho => (hpos o ho).sgn)
  have hr : accepted ops (run s0 ops).2 = (run s0 ops).1.mechs.map fun m => (m.mtype, m.count) := by
    simpa using hI.reqs.symm
  set s := (run s0 ops).1
  have hl : qs.length = s.mechs.length := by rw [hlen, hr]; simp
  have hqs : qs = s.mechs.map fun m => m.delta.getD 0 := by
    apply List.ext_getElem
    · simp [hl]
    · intro j hj hj'
      obtain ⟨m, hm, hq⟩ := seesDelta_iff.mp (hread j hj)
      rw [List.getElem_map]
      have : s.mechs[j]? = some s.mechs[j] := List.getElem?_eq_getElem (by omega)
      rw [this] at hm
      simp only [Option.some.injEq] at hm
      rw [hm, hq]; rfl
  constructor
  · intro q hq
    obtain ⟨j, hj, rfl⟩ := List.getElem_of_mem hq
    obtain ⟨m, hm, hq⟩ := seesDelta_iff.mp (hread j hj)
    exact (hS.delta m (List.mem_of_getElem? hm) _ hq).1
  · rw [hr, hqs, spent_eq]
    rcases hI.status with h | ⟨-, hP⟩
    · rw [List.sum_eq_zero]
      · exact hd
      · intro x hx
        obtain ⟨m, hm, rfl⟩ := List.mem_map.mp hx
        simp [(h m hm).2]
    · rcases hP.sumDelta with h | h
      · exact h.le
      · rw [List.sum_eq_zero]
        · exact hd
        · intro x hx
          obtain ⟨m, hm, rfl⟩ := List.mem_map.mp hx
          simp [h m hm]

/-- A concrete history meeting the hypotheses of C01 and C02: two mechanisms (one with count 2, one
inside a scope), total epsilon 1 and delta 1/10. -/
def demoOps : List Op :=
  [.request .laplace 1 1 2 none, .enter 3, .request .gaussian 1 5 1 none, .exit, .compute]

example : ∃ s0, init 1 (1/10) none none = .ok s0 ∧ (∀ op ∈ demoOps, op.Positive) ∧
    seesEps (run s0 demoOps).1 0 (1/5) ∧ seesEps (run s0 demoOps).1 1 (3/5) ∧
    seesDelta (run s0 demoOps).1 0 0 ∧ seesDelta (run s0 demoOps).1 1 (1/10) := by
  refine ⟨⟨1, 1/10, none, none, [], [], [], false⟩, by norm_num [init], ?_, ?_, ?_, ?_, ?_⟩
  · simp [demoOps, Op.Positive]
  all_goals (first | unfold seesEps | unfold seesDelta) <;> decide +kernel

/-! ## Life cycle (C03) -/

/-- **C03a**.  Before `compute_budgets` is called no budget can be read: every read of an existing
mechanism raises. -/
theorem C03_no_budget_before_compute {e d : ℚ} {num ws s0} {ops : List Op}
    (h0 : init e d num ws = .ok s0) (hno : Op.compute ∉ ops)
    {j} (hj : j < (accepted ops (run s0 ops).2).length) :
    (step (run s0 ops).1 (.readEps j)).2 = .raised .budgetNotComputed ∧
    (step (run s0 ops).1 (.readDelta j)).2 = .raised .budgetNotComputed := by
  have key : ∀ (s : State), s.finalized = false → (run s ops).1.finalized = false := by
    clear hj
    induction ops with
    | nil => intro s h; exact h
    | cons op ops ih =>
      intro s h
      rw [run_cons]
      apply ih (fun hc => hno (List.mem_cons_of_mem _ hc))
      cases op with
      | request t sens w c n =>
        simp only [step, requestBudget]
        split_ifs <;> simp [register, h]
      | enter w => exact h
      | exit =>
        have : (exitScope s).1.finalized = false := by
          unfold exitScope
          split
          · exact h
          · simp only; split_ifs <;> exact h
        simp only [step]; split <;> rename_i heq <;> rw [heq] at this <;> exact this
      | aggregation w =>
        have : (computeBudgetForAggregation s w).1.finalized = false := by
          unfold computeBudgetForAggregation
          simp only
          split
          · exact h
          · split
            · split_ifs <;> exact h
            · exact h
        simp only [step]; split <;> rename_i heq <;> rw [heq] at this <;> exact this
      | compute => exact absurd List.mem_cons_self hno
      | readEps i => exact h
      | readDelta i => exact h
  have hI := inv_run (inv_init h0) ops
  obtain ⟨-, -, -, hs0, -⟩ := init_facts h0
  have hf := key s0 (by rw [hs0])
  have hr : accepted ops (run s0 ops).2 = (run s0 ops).1.mechs.map fun m => (m.mtype, m.count) := by
    simpa using hI.reqs.symm
  set s := (run s0 ops).1
  rw [hr, List.length_map] at hj
  rcases hI.status with h | ⟨h, -⟩
  · have := h s.mechs[j] (List.getElem_mem hj)
    simp [step, readField, List.getElem?_eq_getElem hj, this]
  · rw [hf] at h; simp at h

/-- **C03b**.  After a successful `compute_budgets`, whatever is called next: every budget that can be
read stays exactly the same for ever, every new request raises, and a second `compute_budgets` raises. -/
theorem C03_budget_final_after_compute {s : State} (hc : (step s .compute).2 = .unit) (ops : List Op) :
    let s1 := (step s .compute).1
    let s2 := (run s1 ops).1
    (∀ j, (step s2 (.readEps j)).2 = (step s1 (.readEps j)).2 ∧
          (step s2 (.readDelta j)).2 = (step s1 (.readDelta j)).2) ∧
    (∀ t sens w c n, (step s2 (.request t sens w c n)).2 = .raised .requestAfterCompute) ∧
    (∃ err, (step s2 .compute).2 = .raised err) := by
  intro s1 s2
  have hf := finalized_run (compute_finalizes hc) ops
  refine ⟨?_, ?_, ?_⟩
  · intro j; exact readField_congr hf.2 j
  · intro t sens w c n
    have hf1 : s2.finalized = true := hf.1
    simp only [step, requestBudget, if_pos hf1]
  · have hf1 : s2.finalized = true := hf.1
    rcases compute_cases s2 with ⟨_, h⟩ | ⟨_, h⟩ | ⟨h, _⟩
    · exact ⟨_, by rw [h]⟩
    · exact ⟨_, by rw [h]⟩
    · rw [hf1] at h; simp at h

/-- **C03c**.  A successful `compute_budgets` publishes a budget for every mechanism requested so far. -/
theorem C03_compute_publishes {e d : ℚ} {num ws s0} {ops : List Op}
    (h0 : init e d num ws = .ok s0) (hc : (step (run s0 ops).1 .compute).2 = .unit)
    {j} (hj : j < (accepted ops (run s0 ops).2).length) :
    (∃ q, seesEps (step (run s0 ops).1 .compute).1 j q) ∧
    (∃ q, seesDelta (step (run s0 ops).1 .compute).1 j q) := by
  have hI := inv_run (inv_init h0) ops
  have hr : accepted ops (run s0 ops).2 = (run s0 ops).1.mechs.map fun m => (m.mtype, m.count) := by
    simpa using hI.reqs.symm
  set s := (run s0 ops).1
  rw [hr, List.length_map] at hj
  have hne : s.mechs ≠ [] := by intro h; simp [h] at hj
  simp only [seesEps_iff, seesDelta_iff]
  rcases compute_cases s with ⟨_, h⟩ | ⟨_, h⟩ | ⟨_, _, ⟨h', h⟩ | ⟨_, _, h⟩ | ⟨_, _, h⟩⟩
  · rw [h] at hc; simp at hc
  · rw [h] at hc; simp at hc
  · exact absurd h' hne
  · rw [h] at hc; simp at hc
  · rw [h]
    simp only [List.getElem?_map, List.getElem?_eq_getElem hj, Option.map_some, Option.some.injEq]
    exact ⟨⟨_, _, rfl, rfl⟩, ⟨_, _, rfl, rfl⟩⟩

/-- **C03d** (defect).  `compute_budgets` called inside a scope raises, but it has already marked the
accountant as finalised: no later history can ever publish a budget or register a mechanism. -/
theorem C03_compute_inside_scope_is_fatal {e d : ℚ} {num ws s0} {ops : List Op}
    (h0 : init e d num ws = .ok s0)
    (hc : (step (run s0 ops).1 .compute).2 = .raised .insideScope) (later : List Op) :
    let s2 := (run (step (run s0 ops).1 .compute).1 later).1
    (∀ j q, ¬ seesEps s2 j q ∧ ¬ seesDelta s2 j q) ∧
    (∀ t sens w c n, (step s2 (.request t sens w c n)).2 = .raised .requestAfterCompute) := by
  intro s2
  have hI := inv_run (inv_init h0) ops
  set s := (run s0 ops).1
  have hkey : (step s .compute).1 = { s with finalized := true } ∧ s.finalized = false := by
    rcases compute_cases s with ⟨_, h⟩ | ⟨_, h⟩ | ⟨hf, _, ⟨h', h⟩ | ⟨_, _, h⟩ | ⟨_, _, h⟩⟩ <;>
      rw [h] at hc ⊢ <;> simp at hc
    exact ⟨rfl, hf⟩
  have hnone : ∀ m ∈ s.mechs, m.eps = none ∧ m.delta = none := by
    rcases hI.status with h | ⟨h, -⟩
    · exact h
    · rw [hkey.2] at h; simp at h
  have hf := finalized_run (s := (step s .compute).1) (by rw [hkey.1]) later
  have hn2 : ∀ m ∈ s2.mechs, m.eps = none ∧ m.delta = none := by
    apply none_congr hnone
    have := hf.2
    rw [show (step s .compute).1.mechs = s.mechs by rw [hkey.1]] at this
    exact this
  refine ⟨?_, ?_⟩
  · intro j q
    simp only [seesEps_iff, seesDelta_iff]
    constructor
    · rintro ⟨m, hm, hq⟩; rw [(hn2 m (List.mem_of_getElem? hm)).1] at hq; simp at hq
    · rintro ⟨m, hm, hq⟩; rw [(hn2 m (List.mem_of_getElem? hm)).2] at hq; simp at hq
  · intro t sens w c n
    have : s2.finalized = true := hf.1
    simp only [step, requestBudget, if_pos this]

example : ∃ s0, init 1 0 none none = .ok s0 ∧
    (step (run s0 [.enter 1, .request .laplace 1 1 1 none]).1 .compute).2 = .raised .insideScope :=
  ⟨_, rfl, by decide +kernel⟩

example : ∃ s0, init 1 0 none none = .ok s0 ∧
    (step (run s0 [.request .laplace 1 1 1 none]).1 .compute).2 = .unit ∧
    (accepted [.request .laplace 1 1 1 none] (run s0 [.request .laplace 1 1 1 none]).2).length = 1 :=
  ⟨_, rfl, by decide +kernel, by decide +kernel⟩

/-- **C03e**.  A call that raises because of its arguments leaves the accountant as it was: a rejected
request changes nothing. -/
theorem C03_rejected_request_has_no_effect {s : State} {t sens w c n err}
    (h : (step s (.request t sens w c n)).2 = .raised err) :
    (step s (.request t sens w c n)).1 = s := by
  simp only [step, requestBudget] at h ⊢
  split_ifs at h ⊢ <;> rfl

/-- **C03f**.  Which requests are rejected, outright. -/
theorem C03_request_rejected_iff (s : State) (t sens w c n) :
    (∃ err, (step s (.request t sens w c n)).2 = .raised err) ↔
      s.finalized = true ∨ n ≠ none ∨ (t = .gaussian ∧ s.totalDelta = 0) := by
  simp only [step, requestBudget]
  split_ifs with h1 h2 h3
  · simp [h1]
  · simp only [Option.isSome_iff_ne_none] at h2; simp [h2]
  · simp [h3]
  · simp only [Option.isSome_iff_ne_none] at h2; simp [h1, h2, h3]

end PDP.Budget
