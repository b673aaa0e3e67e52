import Verif.EndToEnd.CallsRuns
import Verif.Budget.Scopes

/-!
# Budget weights of any sign (C98)

`AggregateParams`, `SelectPartitionsParams` and the accountant take any number as a weight
(`aggregate_params.py:248`, `:414`; `budget_accounting.py:333-378`, `:273-298`); only `AddDPNoiseParams` checks its weight
(`aggregate_params.py:675`).  The other properties of the accountant assume positive or non-negative weights.  Here nothing is
assumed about them.
-/

set_option linter.unusedSectionVars false

namespace PDP.EndToEnd.Weights

open PDP PDP.Engine
open PDP.Budget (State Op MechType Out accepted seesEps seesDelta spent)

/-! ## Specification -/

/-- What a list of granted values costs if only the usable ones, those which are positive, are used. -/
def usable (rs : List (MechType × ℤ)) (qs : List ℚ) : ℚ := spent rs (qs.map fun q => max q 0)

/-- A call of the engine as the accountant sees it: its `budget_weight` and the weights and kinds of the budgets it requests. -/
abbrev WCall := ℚ × List Request

/-- The sum of the weights requested within a call. -/
def WCall.inner (c : WCall) : ℚ := (c.2.map Request.weight).sum

/-- The sum of the weights of the calls which request something. -/
def outer (cs : List WCall) : ℚ := (cs.map fun c => if c.2 = [] then 0 else c.1).sum

/-- What each budget gets of `e`: the call gets `budget_weight / outer`, and the request `weight / inner` of it. -/
def grants (e : ℚ) (cs : List WCall) : List ℚ :=
  cs.flatMap fun c => c.2.map fun r => e * (c.1 / outer cs) * (r.weight / c.inner)

/-- The calls on the accountant (`dp_engine.py:97-107`, `:229-234`). -/
def opsOf (cs : List WCall) : List Op := cs.flatMap fun c => callOps c.1 c.2

/-- `aggregate` with `n` metrics budgets and private partition selection (`combiners.py:858-916`: the metrics request
`budget_weight`, `dp_engine.py:334-335`: the selection requests the default weight 1). -/
def privateCall (m : Mechanism) (w : ℚ) (n : ℕ) : WCall := (w, List.replicate n ⟨m, w⟩ ++ [⟨.generic, 1⟩])

/-- `aggregate` with `n` metrics budgets and public partitions. -/
def publicCall (m : Mechanism) (w : ℚ) (n : ℕ) : WCall := (w, List.replicate n ⟨m, w⟩)

/-! ## Any history of the accountant -/

theorem readings {s : State} {qs : List ℚ} (f : Budget.Mech → Option ℚ) (hl : qs.length = s.mechs.length)
    (h : ∀ j (hj : j < qs.length), ∃ m, s.mechs[j]? = some m ∧ f m = some qs[j]) :
    qs = s.mechs.map fun m => (f m).getD 0 := by
  apply List.ext_getElem
  · simp [hl]
  · intro j hj hj'
    obtain ⟨m, hm, hq⟩ := h j hj
    rw [List.getElem_map]
    rw [List.getElem?_eq_getElem (by omega)] at hm
    simp only [Option.some.injEq] at hm
    rw [hm, hq]; rfl

/-- **C98** (the books balance).  In every history of calls, with any weights and counts, the granted epsilons times their counts
add up to the pipeline epsilon, or all of them are 0; the same for the deltas. -/
theorem C98_books_balance {e d : ℚ} {num ws s0} {ops : List Op} (h0 : Budget.init e d num ws = .ok s0) {es ds : List ℚ}
    (hle : es.length = (accepted ops (Budget.run s0 ops).2).length) (hld : ds.length = (accepted ops (Budget.run s0 ops).2).length)
    (he : ∀ j (hj : j < es.length), seesEps (Budget.run s0 ops).1 j es[j])
    (hd : ∀ j (hj : j < ds.length), seesDelta (Budget.run s0 ops).1 j ds[j]) :
    (spent (accepted ops (Budget.run s0 ops).2) es = e ∨ ∀ q ∈ es, q = 0) ∧
      (spent (accepted ops (Budget.run s0 ops).2) ds = d ∨ ∀ q ∈ ds, q = 0) := by
  have hI := Budget.inv_run (Budget.inv_init h0) ops
  have hr : accepted ops (Budget.run s0 ops).2 = (Budget.run s0 ops).1.mechs.map fun m => (m.mtype, m.count) := by
    simpa using hI.reqs.symm
  set s := (Budget.run s0 ops).1
  rw [hr, List.length_map] at hle hld
  have e1 := readings Budget.Mech.eps hle fun j hj => Budget.seesEps_iff.mp (he j hj)
  have d1 := readings Budget.Mech.delta hld fun j hj => Budget.seesDelta_iff.mp (hd j hj)
  rw [hr]
  rcases hI.status with h | ⟨-, hP⟩
  · constructor
    · right; intro q hq; rw [e1] at hq
      obtain ⟨m, hm, rfl⟩ := List.mem_map.mp hq; simp [(h m hm).1]
    · right; intro q hq; rw [d1] at hq
      obtain ⟨m, hm, rfl⟩ := List.mem_map.mp hq; simp [(h m hm).2]
  · constructor
    · rcases hP.sumEps with h | h
      · left; rw [e1, Budget.spent_eq]; exact h
      · right; intro q hq; rw [e1] at hq
        obtain ⟨m, hm, rfl⟩ := List.mem_map.mp hq; simp [h m hm]
    · rcases hP.sumDelta with h | h
      · left; rw [d1, Budget.spent_eq]; exact h
      · right; intro q hq; rw [d1] at hq
        obtain ⟨m, hm, rfl⟩ := List.mem_map.mp hq; simp [h m hm]

theorem usable_le_iff (rs : List (MechType × ℤ)) (hc : ∀ r ∈ rs, 0 < r.2) :
    ∀ qs : List ℚ, qs.length = rs.length → spent rs qs ≤ usable rs qs ∧ (usable rs qs = spent rs qs ↔ ∀ q ∈ qs, 0 ≤ q) := by
  induction rs with
  | nil => intro qs h; have := List.length_eq_zero_iff.mp h; subst this; simp [usable, spent]
  | cons r rs ih =>
    intro qs h
    cases qs with
    | nil => simp at h
    | cons q qs =>
      obtain ⟨i1, i2⟩ := ih (fun r hr => hc r (by simp [hr])) qs (by simpa using h)
      have hr : (0 : ℚ) < (r.2 : ℚ) := by exact_mod_cast hc r (by simp)
      simp only [usable, spent, List.map_cons, List.zipWith_cons_cons, List.sum_cons, List.forall_mem_cons] at i1 i2 ⊢
      have hq : (r.2 : ℚ) * q ≤ r.2 * max q 0 := mul_le_mul_of_nonneg_left (le_max_left _ _) hr.le
      refine ⟨by linarith, ?_, ?_⟩
      · intro hh
        refine ⟨?_, i2.mp (by linarith)⟩
        have : (r.2 : ℚ) * max q 0 = r.2 * q := by linarith
        have := mul_left_cancel₀ hr.ne' this
        rw [← this]; exact le_max_right _ _
      · rintro ⟨h1, h2⟩
        rw [i2.mpr h2, max_eq_left h1]

/-- **C98** (when the guarantee is kept).  In every history with positive counts, with any weights: if the granted epsilons are not
all 0, the usable ones cost at least the pipeline epsilon, and not more exactly if no granted epsilon is negative. -/
theorem C98_kept_iff {e d : ℚ} {num ws s0} {ops : List Op} (h0 : Budget.init e d num ws = .ok s0)
    (hc : ∀ r ∈ accepted ops (Budget.run s0 ops).2, 0 < r.2) {es : List ℚ}
    (hle : es.length = (accepted ops (Budget.run s0 ops).2).length)
    (he : ∀ j (hj : j < es.length), seesEps (Budget.run s0 ops).1 j es[j]) (hz : ∃ q ∈ es, q ≠ 0) :
    e ≤ usable (accepted ops (Budget.run s0 ops).2) es ∧
      (usable (accepted ops (Budget.run s0 ops).2) es ≤ e ↔ ∀ q ∈ es, 0 ≤ q) := by
  have hsum : spent (accepted ops (Budget.run s0 ops).2) es = e := by
    have hI := Budget.inv_run (Budget.inv_init h0) ops
    have hr : accepted ops (Budget.run s0 ops).2 = (Budget.run s0 ops).1.mechs.map fun m => (m.mtype, m.count) := by
      simpa using hI.reqs.symm
    set s := (Budget.run s0 ops).1
    rw [hr, List.length_map] at hle
    have e1 := readings Budget.Mech.eps hle fun j hj => Budget.seesEps_iff.mp (he j hj)
    obtain ⟨q, hq, hq0⟩ := hz
    rw [e1] at hq
    obtain ⟨m, hm, rfl⟩ := List.mem_map.mp hq
    rcases hI.status with h | ⟨-, hP⟩
    · simp [(h m hm).1] at hq0
    · rcases hP.sumEps with h | h
      · rw [hr, e1, Budget.spent_eq]; exact h
      · simp [h m hm] at hq0
  obtain ⟨h1, h2⟩ := usable_le_iff _ hc es hle
  rw [hsum] at h1 h2
  exact ⟨h1, fun h => h2.mp (le_antisymm h h1), fun h => (h2.mpr h).le⟩

/-- **C98** (the same for delta).  In every history with positive counts, with any weights: if the granted deltas are not all 0, the
usable ones cost at least the pipeline delta, and not more exactly if no granted delta is negative. -/
theorem C98_delta_kept_iff {e d : ℚ} {num ws s0} {ops : List Op} (h0 : Budget.init e d num ws = .ok s0)
    (hc : ∀ r ∈ accepted ops (Budget.run s0 ops).2, 0 < r.2) {ds : List ℚ}
    (hld : ds.length = (accepted ops (Budget.run s0 ops).2).length)
    (hd : ∀ j (hj : j < ds.length), seesDelta (Budget.run s0 ops).1 j ds[j]) (hz : ∃ q ∈ ds, q ≠ 0) :
    d ≤ usable (accepted ops (Budget.run s0 ops).2) ds ∧
      (usable (accepted ops (Budget.run s0 ops).2) ds ≤ d ↔ ∀ q ∈ ds, 0 ≤ q) := by
  have hsum : spent (accepted ops (Budget.run s0 ops).2) ds = d := by
    have hI := Budget.inv_run (Budget.inv_init h0) ops
    have hr : accepted ops (Budget.run s0 ops).2 = (Budget.run s0 ops).1.mechs.map fun m => (m.mtype, m.count) := by
      simpa using hI.reqs.symm
    set s := (Budget.run s0 ops).1
    rw [hr, List.length_map] at hld
    have e1 := readings Budget.Mech.delta hld fun j hj => Budget.seesDelta_iff.mp (hd j hj)
    obtain ⟨q, hq, hq0⟩ := hz
    rw [e1] at hq
    obtain ⟨m, hm, rfl⟩ := List.mem_map.mp hq
    rcases hI.status with h | ⟨-, hP⟩
    · simp [(h m hm).2] at hq0
    · rcases hP.sumDelta with h | h
      · rw [hr, e1, Budget.spent_eq]; exact h
      · simp [h m hm] at hq0
  obtain ⟨h1, h2⟩ := usable_le_iff _ hc ds hld
  rw [hsum] at h1 h2
  exact ⟨h1, fun h => h2.mp (le_antisymm h h1), fun h => (h2.mpr h).le⟩

/-! ## Calls of the engine -/

/-- The mechanisms of a call after it has left its scope. -/
def WCall.mechs (c : WCall) : List Budget.Mech :=
  if c.inner = 0 then c.2.map mechOf else c.2.map fun r => { mechOf r with weight := r.weight * (c.1 / c.inner) }

theorem run_wcall (c : WCall) (s : State) (hs : s.finalized = false) (hst : s.stack = []) (hn : s.expectedNum = none)
    (hw : s.expectedWeights = none) (hg : ∀ r ∈ c.2, r.mechanism = .gaussian → s.totalDelta ≠ 0) :
    ∃ outs, (∀ o ∈ outs, Out.Fine o) ∧ Budget.run s (callOps c.1 c.2) =
      ({ s with mechs := s.mechs ++ c.mechs, actualWeights := s.actualWeights ++ [c.1] },
        outs ++ [if c.2 ≠ [] ∧ c.inner = 0 then .raised .zeroDivision else .unit]) := by
  obtain ⟨w, l⟩ := c
  obtain ⟨h1, h2⟩ := run_reqs l (Budget.enterScope s w) hs hg w [] (by simp [Budget.enterScope, hst])
  simp only [callOps, List.cons_append, Budget.run]
  rw [Budget.run_append]
  rw [show (Budget.step s (.enter w)) = (Budget.enterScope s w, .unit) from rfl]
  rw [h1]
  generalize (Budget.run (Budget.enterScope s w)
    (l.map fun r => .request (toMechType r.mechanism) 1 r.weight 1 none)).2 = outs at h2 ⊢
  have hsum : ((List.range' s.mechs.length l.length).map (Budget.weightAt (s.mechs ++ l.map mechOf))).sum
      = (l.map Request.weight).sum := by
    have := Budget.weightAt_range' s.mechs (l.map mechOf)
    rw [List.length_map] at this
    rw [this, List.map_map]; rfl
  refine ⟨.unit :: (outs ++ [.budget none]), ?_, ?_⟩
  · intro o ho
    simp only [List.mem_cons, List.mem_append, List.not_mem_nil, or_false] at ho
    rcases ho with rfl | ho | rfl
    · trivial
    · exact h2 o ho
    · trivial
  · simp only [Budget.run, Budget.step, Budget.computeBudgetForAggregation, Budget.enterScope, hn, hw, Budget.truthyNum,
      Budget.truthyList, Budget.exitScope, List.nil_append, hsum, WCall.mechs, WCall.inner]
    by_cases hl : l = []
    · subst hl; simp [hst]
    · have hne : List.range' s.mechs.length l.length ≠ [] := by simpa using hl
      by_cases ht : (l.map Request.weight).sum = 0
      · simp [hl, ht, hst]
      · have := Budget.scaleAll_range' (w / (l.map Request.weight).sum) s.mechs (l.map mechOf)
        rw [List.length_map, List.map_map] at this
        simp only [hne, ht, if_false, this, and_false, List.append_assoc, List.cons_append, List.nil_append]
        simp [hst, mechOf, Function.comp_def]

/-- **C98** (calls that fail).  A call of the engine on any accountant outside of scopes that has announced nothing raises exactly
if it requests budgets whose weights add up to 0, and then only when its scope is left: `ZeroDivisionError`.  In both cases all
its mechanisms stay registered. -/
theorem C98_call_raises_iff (c : WCall) (s : State) (hs : s.finalized = false) (hst : s.stack = []) (hn : s.expectedNum = none)
    (hw : s.expectedWeights = none) (hg : ∀ r ∈ c.2, r.mechanism = .gaussian → s.totalDelta ≠ 0) :
    ((∃ err, Out.raised err ∈ (Budget.run s (callOps c.1 c.2)).2) ↔ c.2 ≠ [] ∧ c.inner = 0) ∧
    (∀ err, Out.raised err ∈ (Budget.run s (callOps c.1 c.2)).2 → err = .zeroDivision) ∧
    (Budget.run s (callOps c.1 c.2)).1.mechs.length = s.mechs.length + c.2.length := by
  obtain ⟨outs, h1, h2⟩ := run_wcall c s hs hst hn hw hg
  rw [h2]
  have key : ∀ err, Out.raised err ∈ outs → False := fun err h => h1 _ h
  refine ⟨?_, ?_, ?_⟩
  · by_cases h : c.2 ≠ [] ∧ c.inner = 0
    · simp [h]
    · simp only [h, if_false, List.mem_append, List.mem_singleton, reduceCtorEq, or_false, iff_false]
      rintro ⟨err, he⟩
      exact key err he
  · intro err he
    rw [List.mem_append, List.mem_singleton] at he
    rcases he with he | he
    · exact (key err he).elim
    · split at he <;> simp at he
      exact he
  · simp only [List.length_append, WCall.mechs]
    split <;> simp

/-- **C98** (weights which make a call fail).  `aggregate` with `n > 0` budgets for metrics fails on leaving its scope for
`budget_weight = 0` with public partitions and for `budget_weight = -1 / n` with private ones, and for no other weight. -/
theorem C98_failing_weights (m : Mechanism) (w : ℚ) (n : ℕ) (hn : 0 < n) :
    ((publicCall m w n).inner = 0 ↔ w = 0) ∧ ((privateCall m w n).inner = 0 ↔ w = -1 / n) ∧
      (publicCall m w n).2 ≠ [] ∧ (privateCall m w n).2 ≠ [] := by
  have hn' : (n : ℚ) ≠ 0 := by exact_mod_cast hn.ne'
  refine ⟨?_, ?_, ?_, ?_⟩
  · simp [publicCall, WCall.inner, hn.ne']
  · simp only [privateCall, WCall.inner, List.map_append, List.map_replicate, List.sum_append, List.sum_replicate, List.map_cons,
      List.map_nil, List.sum_cons, List.sum_nil, nsmul_eq_mul, add_zero]
    rw [eq_div_iff hn']
    constructor <;> intro h <;> linarith
  · simp [publicCall, hn.ne']
  · simp [privateCall]

theorem run_wcalls (cs : List WCall) : ∀ (s : State), s.finalized = false → s.stack = [] → s.expectedNum = none →
    s.expectedWeights = none → (∀ c ∈ cs, ∀ r ∈ c.2, r.mechanism = .gaussian → s.totalDelta ≠ 0) →
    (∀ c ∈ cs, c.2 ≠ [] → c.inner ≠ 0) →
    (Budget.run s (opsOf cs)).1 = { s with mechs := s.mechs ++ cs.flatMap WCall.mechs,
                                           actualWeights := s.actualWeights ++ cs.map Prod.fst } ∧
      ∀ o ∈ (Budget.run s (opsOf cs)).2, Out.Fine o := by
  induction cs with
  | nil => intro s _ _ _ _ _ _; simp [opsOf, Budget.run]
  | cons c cs ih =>
    intro s hs hst hn hw hg hi
    obtain ⟨outs, h1, h2⟩ := run_wcall c s hs hst hn hw (hg c (by simp))
    have hc : ¬(c.2 ≠ [] ∧ c.inner = 0) := fun h => hi c (by simp) h.1 h.2
    obtain ⟨i1, i2⟩ := ih { s with mechs := s.mechs ++ c.mechs, actualWeights := s.actualWeights ++ [c.1] } hs hst hn hw
      (fun c' h => hg c' (by simp [h])) (fun c' h => hi c' (by simp [h]))
    rw [show opsOf (c :: cs) = callOps c.1 c.2 ++ opsOf cs from rfl, Budget.run_append, h2]
    refine ⟨?_, ?_⟩
    · rw [i1]; simp
    · intro o ho
      simp only [List.mem_append, List.mem_singleton, if_neg hc] at ho
      rcases ho with (ho | rfl) | ho
      · exact h1 o ho
      · trivial
      · exact i2 o ho

theorem sum_wcall_mechs (c : WCall) (hi : c.2 ≠ [] → c.inner ≠ 0) :
    (c.mechs.map Budget.Mech.weight).sum = if c.2 = [] then 0 else c.1 := by
  by_cases h : c.2 = []
  · simp [WCall.mechs, h]
  · have ht := hi h
    simp only [WCall.mechs, if_neg ht, h, if_false, List.map_map, Function.comp_def]
    rw [List.sum_map_mul_right]
    change c.inner * _ = _
    field_simp

theorem counts_wcall_mechs (c : WCall) : ∀ m ∈ c.mechs, m.count = 1 := by
  intro m hm
  unfold WCall.mechs at hm
  split at hm <;> obtain ⟨r, -, rfl⟩ := List.mem_map.mp hm <;> rfl

theorem totalWeight_wcalls (cs : List WCall) (hi : ∀ c ∈ cs, c.2 ≠ [] → c.inner ≠ 0) :
    Budget.totalWeightEps (cs.flatMap WCall.mechs) = outer cs := by
  rw [Budget.totalWeightEps_eq]
  unfold outer
  induction cs with
  | nil => simp
  | cons c cs ih =>
    rw [List.flatMap_cons, List.map_append, List.sum_append, ih (fun c' h => hi c' (by simp [h])), List.map_cons, List.sum_cons,
      ← sum_wcall_mechs c (hi c (by simp))]
    congr 2
    apply List.map_congr_left
    intro m hm; rw [counts_wcall_mechs c m hm]; simp

/-- **C98** (shares for any weights).  Any list of calls of the engine in which no call fails, with weights of any sign, followed by
`compute_budgets`, on an accountant without announcements: nothing raises, and each epsilon is the share that the weights give,
as signed numbers; if the weights of the calls add up to 0, every epsilon is 0. -/
theorem C98_signed_shares {e d : ℚ} {s0} (h0 : Budget.init e d none none = .ok s0) (cs : List WCall)
    (hi : ∀ c ∈ cs, c.2 ≠ [] → c.inner ≠ 0) (hg : d ≠ 0 ∨ ∀ c ∈ cs, ∀ r ∈ c.2, r.mechanism ≠ .gaussian) :
    (∀ o ∈ (Budget.run s0 (opsOf cs ++ [.compute])).2, Out.Fine o) ∧
    ∀ j (hj : j < (grants e cs).length), seesEps (Budget.run s0 (opsOf cs ++ [.compute])).1 j
      (if outer cs = 0 then 0 else (grants e cs)[j]) := by
  obtain ⟨he, hd, -, hs0, -⟩ := Budget.init_facts h0
  obtain ⟨h1, h2⟩ := run_wcalls cs s0 (by rw [hs0]) (by rw [hs0]) (by rw [hs0]) (by rw [hs0]) (by
    rw [hs0]; rcases hg with h | h
    · exact fun _ _ _ _ _ => h
    · exact fun c hc r hr hm => absurd hm (h c hc r hr)) hi
  have hs : (Budget.run s0 (opsOf cs)).1 = ⟨e, d, none, none, cs.map Prod.fst, [], cs.flatMap WCall.mechs, false⟩ := by
    rw [h1, hs0]; simp
  have hlen : (cs.flatMap WCall.mechs).length = (grants e cs).length := by
    simp only [grants, List.length_flatMap]
    congr 1
    apply List.map_congr_left
    intro c _
    unfold WCall.mechs; split <;> simp
  have hW := totalWeight_wcalls cs hi
  rw [Budget.run_append]
  by_cases hnil : cs.flatMap WCall.mechs = []
  · refine ⟨?_, ?_⟩
    · intro o ho
      simp only [Budget.run, List.mem_append, List.mem_singleton] at ho
      rcases ho with ho | ho
      · exact h2 o ho
      · rw [ho, hs]
        simp [Budget.step, Budget.computeBudgets, Budget.checkRestrictions, Budget.truthyNum, Budget.truthyList, hnil, Out.Fine]
    · intro j hj; rw [← hlen, hnil] at hj; simp at hj
  · have hcomp : Budget.step (Budget.run s0 (opsOf cs)).1 .compute
        = (⟨e, d, none, none, cs.map Prod.fst, [], (cs.flatMap WCall.mechs).map
            (Budget.assign e d (outer cs) (Budget.totalWeightDelta (cs.flatMap WCall.mechs))), true⟩, .unit) := by
      rw [hs]
      simp only [Budget.step, Budget.computeBudgets, Budget.checkRestrictions, Budget.truthyNum, Budget.truthyList, hnil, hW]
      simp
    refine ⟨?_, ?_⟩
    · intro o ho
      simp only [Budget.run, List.mem_append, List.mem_singleton] at ho
      rcases ho with ho | ho
      · exact h2 o ho
      · rw [ho, hcomp]; trivial
    · intro j hj
      simp only [Budget.run]
      rw [Budget.seesEps_iff, hcomp]
      have hj1 : j < (cs.flatMap WCall.mechs).length := by rw [hlen]; exact hj
      refine ⟨_, by rw [List.getElem?_map, List.getElem?_eq_getElem hj1]; rfl, ?_⟩
      simp only [Budget.assign, Option.some.injEq]
      by_cases hz : outer cs = 0
      · simp [hz]
      · simp only [hz, ne_eq, not_false_eq_true, if_true, if_false]
        have hgr : grants e cs = (cs.flatMap WCall.mechs).map fun m => e * m.weight / outer cs := by
          rw [grants, List.map_flatMap]
          apply List.flatMap_congr
          intro c hc
          by_cases hne : c.2 = []
          · simp [WCall.mechs, hne]
          · rw [WCall.mechs, if_neg (hi c hc hne), List.map_map]
            apply List.map_congr_left
            intro r _
            simp only [Function.comp_apply]
            have := hi c hc hne
            field_simp
        simp only [hgr, List.getElem_map]

/-- **C98** (no limit).  For every factor `k > 1` there are two `budget_weight`s for two `aggregate` calls, of one metric each on
public partitions, such that no call raises and the first metric is given `k` times the epsilon of the whole pipeline. -/
theorem C98_no_limit {e d : ℚ} {s0} (h0 : Budget.init e d none none = .ok s0) (k : ℚ) (hk : 1 < k) : ∃ w1 w2 : ℚ,
    (∀ o ∈ (Budget.run s0 (opsOf [publicCall .laplace w1 1, publicCall .laplace w2 1] ++ [.compute])).2, Out.Fine o) ∧
    seesEps (Budget.run s0 (opsOf [publicCall .laplace w1 1, publicCall .laplace w2 1] ++ [.compute])).1 0 (k * e) := by
  have hk0 : k ≠ 0 := by linarith
  have hk1 : (1 - k) ≠ 0 := by intro h; linarith
  refine ⟨k, 1 - k, ?_⟩
  obtain ⟨h1, h2⟩ := C98_signed_shares h0 [publicCall .laplace k 1, publicCall .laplace (1 - k) 1]
    (by simp [publicCall, WCall.inner, hk0, hk1]) (.inr (by simp [publicCall]))
  refine ⟨h1, ?_⟩
  have h3 := h2 0 (by simp [grants, publicCall])
  have ho : outer [publicCall .laplace k 1, publicCall .laplace (1 - k) 1] = 1 := by simp [outer, publicCall]
  rw [ho, if_neg one_ne_zero] at h3
  have hgr : (grants e [publicCall .laplace k 1, publicCall .laplace (1 - k) 1])[0]'(by simp [grants, publicCall]) = k * e := by
    simp only [grants, ho]
    simp [publicCall, WCall.inner, hk0, mul_comm]
  rwa [hgr] at h3

/-- **C98** (one call is enough).  A single `aggregate` call with private partition selection and a negative `budget_weight` (other
than `-1 / n`): its selection alone, or its metrics together, are given more than the epsilon of the whole pipeline. -/
theorem C98_one_private_call {e d : ℚ} {s0} (h0 : Budget.init e d none none = .ok s0) (w : ℚ) (hw : w < 0) (n : ℕ) (hn : 0 < n)
    (hne : w ≠ -1 / n) : ∃ a b : ℚ,
    (∀ j < n, seesEps (Budget.run s0 (opsOf [privateCall .laplace w n] ++ [.compute])).1 j a) ∧
    seesEps (Budget.run s0 (opsOf [privateCall .laplace w n] ++ [.compute])).1 n b ∧ (e < n * a ∧ b < 0 ∨ a < 0 ∧ e < b) := by
  obtain ⟨he, -⟩ := Budget.init_facts h0
  have hi : (privateCall .laplace w n).inner ≠ 0 := fun h => hne ((C98_failing_weights .laplace w n hn).2.1.mp h)
  have hin : (privateCall .laplace w n).inner = n * w + 1 := by simp [privateCall, WCall.inner]
  obtain ⟨-, h2⟩ := C98_signed_shares h0 [privateCall .laplace w n] (by simpa using fun _ => hi)
    (.inr (by simp [privateCall]; rintro r (⟨-, rfl⟩ | rfl) <;> simp))
  have ho : outer [privateCall .laplace w n] = w := by simp [outer, privateCall]
  have hgr : grants e [privateCall .laplace w n]
      = List.replicate n (e * w / (n * w + 1)) ++ [e / (n * w + 1)] := by
    simp only [grants, ho, List.flatMap_cons, List.flatMap_nil, List.append_nil, hin]
    simp only [privateCall, List.map_append, List.map_replicate, List.map_cons, List.map_nil]
    rw [div_self hw.ne]
    congr 1
    · congr 1; ring
    · congr 1; ring
  have hn' : (0 : ℚ) < n := by exact_mod_cast hn
  simp only [ho, if_neg hw.ne, hgr] at h2
  refine ⟨e * w / (n * w + 1), e / (n * w + 1), ?_, ?_, ?_⟩
  · intro j hj
    have := h2 j (by simp; omega)
    rwa [List.getElem_append_left (by simpa using hj), List.getElem_replicate] at this
  · have := h2 n (by simp)
    rw [List.getElem_append_right (by simp)] at this
    simpa using this
  · rw [hin] at hi
    rcases lt_or_gt_of_ne hi with h | h
    · left
      refine ⟨?_, div_neg_of_pos_of_neg he h⟩
      rw [mul_div_assoc', lt_div_iff_of_neg h]
      nlinarith
    · right
      refine ⟨div_neg_of_neg_of_pos (mul_neg_of_pos_of_neg he hw) h, ?_⟩
      rw [lt_div_iff₀ h]
      nlinarith [mul_neg_of_pos_of_neg (mul_pos he hn') hw]

/-! ## Examples -/

/-- Two calls with weights 3 and -2 (total epsilon 1): the first metric gets 3, the second -2. -/
example : grants 1 [publicCall .laplace 3 1, publicCall .laplace (-2) 1] = [3, -2] ∧
    usable [(.laplace, 1), (.laplace, 1)] [3, -2] = 3 := by decide +kernel

/-- A private call of weight -2 with one metric: the metric gets twice the total, the selection is negative. -/
example : grants 1 [privateCall .laplace (-2) 1] = [2, -1] ∧ (-2 : ℚ) ≠ -1 / (1 : ℕ) := by
  refine ⟨by decide +kernel, by norm_num⟩

/-- The accountant of the examples exists, and the readings are those of the shares. -/
example : ∃ s0, Budget.init 1 0 none none = .ok s0 ∧
    seesEps (Budget.run s0 (opsOf [publicCall .laplace 3 1, publicCall .laplace (-2) 1] ++ [.compute])).1 0 3 ∧
    seesEps (Budget.run s0 (opsOf [publicCall .laplace 3 1, publicCall .laplace (-2) 1] ++ [.compute])).1 1 (-2) :=
  ⟨_, rfl, by unfold seesEps; decide +kernel, by unfold seesEps; decide +kernel⟩

/-- The same with Gaussian noise and a delta of 2/5: the first metric is given a delta above 1. -/
example : ∃ s0, Budget.init 1 (2/5) none none = .ok s0 ∧
    let ops := opsOf [publicCall .gaussian 3 1, publicCall .gaussian (-2) 1] ++ [.compute]
    accepted ops (Budget.run s0 ops).2 = [(.gaussian, 1), (.gaussian, 1)] ∧
    seesDelta (Budget.run s0 ops).1 0 (6/5) ∧ seesDelta (Budget.run s0 ops).1 1 (-4/5) :=
  ⟨⟨1, 2/5, none, none, [], [], [], false⟩, by norm_num [Budget.init], by decide +kernel,
    by unfold seesDelta; decide +kernel, by unfold seesDelta; decide +kernel⟩

/-- All weights negative: the signs cancel and the shares are those of the absolute values. -/
example : grants 1 [publicCall .laplace (-3) 1, publicCall .laplace (-1) 2] = [3/4, 1/8, 1/8] := by decide +kernel

/-- A private call of weight -1 with one metric fails on leaving its scope; its two mechanisms stay registered. -/
example : ∃ s0, Budget.init 1 0 none none = .ok s0 ∧
    (Budget.run s0 (opsOf [privateCall .laplace (-1) 1])).2.getLast? = some (.raised .zeroDivision) ∧
    (Budget.run s0 (opsOf [privateCall .laplace (-1) 1])).1.mechs.length = 2 :=
  ⟨_, rfl, by decide +kernel, by decide +kernel⟩

end PDP.EndToEnd.Weights
