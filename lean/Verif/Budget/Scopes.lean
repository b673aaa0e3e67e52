import Verif.Budget.Lemmas

/-!
# Budget scopes (C04): nested `with accountant.scope(weight)` blocks

A client program is a forest of requests and scopes.  The specification `Forest.alloc` is the
top-down division of a budget that the documentation of `scope` promises; the accountant instead
rescales weights bottom-up on scope exit.  The theorem says that the two agree.
-/

namespace PDP.Budget

/-- A sequence of `request_budget` calls and `with scope(w):` blocks, arbitrarily nested. -/
inductive Forest
  | nil
  | req (t : MechType) (sens w : ℚ) (count : ℤ) (next : Forest)
  | scope (w : ℚ) (body next : Forest)

namespace Forest

/-- The calls the program makes. -/
def ops : Forest → List Op
  | nil => []
  | req t sens w c next => .request t sens w c none :: next.ops
  | scope w body next => .enter w :: (body.ops ++ .exit :: next.ops)

/-- Number of requests. -/
def size : Forest → Nat
  | nil => 0
  | req _ _ _ _ next => next.size + 1
  | scope _ body next => body.size + next.size

/-- Total weight of the top-level items; a scope in which nothing was requested does not count. -/
def share : Forest → ℚ
  | nil => 0
  | req _ _ w _ next => w + next.share
  | scope w body next => (if body.size = 0 then 0 else w) + next.share

/-- Specification: divide a budget top-down, `unit` being the budget per unit of weight.  A scope of
weight `w` receives `unit * w`, which is divided inside it in proportion to the inner weights. -/
def alloc (unit : ℚ) : Forest → List ℚ
  | nil => []
  | req _ _ w _ next => unit * w :: alloc unit next
  | scope w body next => alloc (unit * w / body.share) body ++ alloc unit next

/-- All weights are positive. -/
def Positive : Forest → Prop
  | nil => True
  | req _ _ w _ next => 0 < w ∧ next.Positive
  | scope w body next => 0 < w ∧ body.Positive ∧ next.Positive

/-- Every mechanism is used once. -/
def CountOne : Forest → Prop
  | nil => True
  | req _ _ _ c next => c = 1 ∧ next.CountOne
  | scope _ body next => body.CountOne ∧ next.CountOne

/-- No Gaussian mechanism is requested (needed only if the pipeline delta is 0). -/
def NoGaussian : Forest → Prop
  | nil => True
  | req t _ _ _ next => t ≠ .gaussian ∧ next.NoGaussian
  | scope _ body next => body.NoGaussian ∧ next.NoGaussian

/-! ### Helper lemmas -/

/-- Mechanisms created by the program, with weights as in `alloc`. -/
def mechsAt (unit : ℚ) : Forest → List Mech
  | nil => []
  | req t sens w c next => ⟨t, sens, unit * w, c, none, none⟩ :: mechsAt unit next
  | scope w body next => mechsAt (unit * w / body.share) body ++ mechsAt unit next

theorem length_mechsAt (f : Forest) (u : ℚ) : (f.mechsAt u).length = f.size := by
  induction f generalizing u with
  | nil => rfl
  | req t sens w c next ih => simp [mechsAt, size, ih]
  | scope w body next ih1 ih2 => simp [mechsAt, size, ih1, ih2]

theorem map_weight_mechsAt (f : Forest) (u : ℚ) : (f.mechsAt u).map Mech.weight = f.alloc u := by
  induction f generalizing u with
  | nil => rfl
  | req t sens w c next ih => simp [mechsAt, alloc, ih]
  | scope w body next ih1 ih2 => simp [mechsAt, alloc, ih1, ih2]

theorem mechsAt_mul (f : Forest) (u v : ℚ) :
    (f.mechsAt u).map (fun m => { m with weight := m.weight * v }) = f.mechsAt (u * v) := by
  induction f generalizing u with
  | nil => rfl
  | req t sens w c next ih => simp only [mechsAt, List.map_cons, ih]; congr 2; ring
  | scope w body next ih1 ih2 =>
    simp only [mechsAt, List.map_append, ih1, ih2]; congr 2; ring

theorem share_nonneg (f : Forest) (h : f.Positive) : 0 ≤ f.share := by
  induction f with
  | nil => exact le_refl _
  | req t sens w c next ih => have := ih h.2; have := h.1; simp only [share]; linarith
  | scope w body next ih1 ih2 =>
    have := ih2 h.2.2; have := h.1; simp only [share]; split <;> linarith

theorem share_pos (f : Forest) (h : f.Positive) (hs : f.size ≠ 0) : 0 < f.share := by
  induction f with
  | nil => simp [size] at hs
  | req t sens w c next ih =>
    have := share_nonneg next h.2; have := h.1; simp only [share]; linarith
  | scope w body next ih1 ih2 =>
    have h1 := share_nonneg next h.2.2; have h2 := h.1; simp only [share]
    split
    · rename_i hb
      have := ih2 h.2.2 (by simpa [size, hb] using hs)
      linarith
    · linarith

theorem alloc_nil_of_size (f : Forest) (u : ℚ) (h : f.size = 0) : f.alloc u = [] := by
  have : (f.alloc u).length = 0 := by rw [← map_weight_mechsAt, List.length_map, length_mechsAt, h]
  exact List.length_eq_zero_iff.mp this

theorem sum_alloc (f : Forest) (u : ℚ) (h : f.Positive) : (f.alloc u).sum = u * f.share := by
  induction f generalizing u with
  | nil => simp [alloc, share]
  | req t sens w c next ih => simp only [alloc, share, List.sum_cons, ih _ h.2]; ring
  | scope w body next ih1 ih2 =>
    simp only [alloc, share, List.sum_append, ih1 _ h.2.1, ih2 _ h.2.2]
    split
    · rename_i hb
      have h0 : (body.alloc 1).sum = 1 * body.share := ih1 1 h.2.1
      rw [alloc_nil_of_size _ _ hb] at h0
      simp at h0
      rw [← h0]; ring
    · rename_i hb
      have := (share_pos body h.2.1 hb).ne'
      field_simp

end Forest

theorem weightAt_range' (ms l : List Mech) :
    (List.range' ms.length l.length).map (weightAt (ms ++ l)) = l.map Mech.weight := by
  apply List.ext_getElem
  · simp
  · intro i h1 h2
    have hi : i < l.length := by simpa using h1
    simp [weightAt, hi]

theorem getElem?_scaleAll (f : ℚ) (idx : List Nat) (hn : idx.Nodup) (ms : List Mech) (j : Nat) :
    (scaleAll f idx ms)[j]?
      = (ms[j]?).map fun m => if j ∈ idx then { m with weight := m.weight * f } else m := by
  induction idx generalizing ms with
  | nil => simp [scaleAll]
  | cons i idx ih =>
    rw [scaleAll_cons, ih (List.nodup_cons.mp hn).2, List.getElem?_modify]
    have hi := (List.nodup_cons.mp hn).1
    by_cases h : i = j
    · subst h
      cases ms[i]? <;> simp [hi]
    · have h' : ¬ j = i := fun e => h e.symm
      cases ms[j]? <;> simp [h, h']

theorem scaleAll_range' (f : ℚ) (ms l : List Mech) :
    scaleAll f (List.range' ms.length l.length) (ms ++ l)
      = ms ++ l.map fun m => { m with weight := m.weight * f } := by
  apply List.ext_getElem?
  intro j
  rw [getElem?_scaleAll _ _ List.nodup_range']
  simp only [List.mem_range'_1]
  by_cases hj : j < ms.length
  · rw [List.getElem?_append_left hj, List.getElem?_append_left hj]
    have : ¬ (ms.length ≤ j ∧ j < ms.length + l.length) := by omega
    simp [this]
  · have hj' : ms.length ≤ j := by omega
    rw [List.getElem?_append_right hj', List.getElem?_append_right hj', List.getElem?_map]
    by_cases hl : j - ms.length < l.length
    · have : j < ms.length + l.length := by omega
      simp [hj', this]
    · have h3 : l[j - ms.length]? = none := by simpa using hl
      simp [h3]

/-- Record mechanism indices in a scope. -/
def Scope.add (idx : List Nat) (sc : Scope) : Scope := { sc with mechs := sc.mechs ++ idx }

theorem map_add_nil (l : List Scope) : l.map (Scope.add []) = l := by
  have : Scope.add [] = id := by funext sc; simp [Scope.add]
  simp [this]

theorem map_add_add (l : List Scope) (a b : List Nat) :
    (l.map (Scope.add a)).map (Scope.add b) = l.map (Scope.add (a ++ b)) := by
  simp [Scope.add]

/-- Effect of running a program. -/
theorem run_forest (f : Forest) (hp : f.Positive) (s : State) (hf : s.finalized = false)
    (hg : s.totalDelta ≠ 0 ∨ f.NoGaussian) :
    (run s f.ops).1 = { s with
      mechs := s.mechs ++ f.mechsAt 1
      stack := s.stack.map (Scope.add (List.range' s.mechs.length f.size)) } ∧
    ∀ o ∈ (run s f.ops).2, ∀ err, o ≠ .raised err := by
  induction f generalizing s with
  | nil => simp [Forest.ops, run, Forest.mechsAt, Forest.size, map_add_nil]
  | req t sens w c next ih =>
    have hreq : step s (.request t sens w c none)
        = (register s ⟨t, sens, w, c, none, none⟩, .spec s.mechs.length) := by
      have h3 : ¬ (t = .gaussian ∧ s.totalDelta = 0) := by
        rintro ⟨h1, h2⟩
        rcases hg with hg | hg
        · exact hg h2
        · exact hg.1 h1
      simp [step, requestBudget, hf, h3]
    have hg' : (register s ⟨t, sens, w, c, none, none⟩).totalDelta ≠ 0 ∨ next.NoGaussian := by
      rcases hg with hg | hg
      · exact .inl hg
      · exact .inr hg.2
    obtain ⟨h1, h2⟩ := ih hp.2 (register s ⟨t, sens, w, c, none, none⟩) hf hg'
    rw [Forest.ops, run_cons, hreq]
    refine ⟨?_, ?_⟩
    · rw [h1]
      simp only [register, Forest.mechsAt, Forest.size, List.length_append, List.length_singleton,
        one_mul, List.append_assoc, List.singleton_append]
      congr 1
      rw [show (s.stack.map fun sc => { sc with mechs := sc.mechs ++ [s.mechs.length] })
        = s.stack.map (Scope.add [s.mechs.length]) from rfl, map_add_add]
      congr 2
    · intro o ho err
      simp only [List.mem_cons] at ho
      rcases ho with rfl | ho
      · simp
      · exact h2 o ho err
  | scope w body next ih1 ih2 =>
    have hgb : s.totalDelta ≠ 0 ∨ body.NoGaussian := by
      rcases hg with hg | hg
      · exact .inl hg
      · exact .inr hg.1
    have hgn : s.totalDelta ≠ 0 ∨ next.NoGaussian := by
      rcases hg with hg | hg
      · exact .inl hg
      · exact .inr hg.2
    obtain ⟨hb1, hb2⟩ := ih1 hp.2.1 (enterScope s w) hf hgb
    rw [Forest.ops, run_cons, run_append]
    rw [show (step s (.enter w)) = (enterScope s w, .unit) from rfl]
    simp only
    set sb := (run (enterScope s w) body.ops).1 with hsb
    -- the exit
    have hexit : step sb .exit = ({ s with
        mechs := s.mechs ++ body.mechsAt (1 * w / body.share)
        stack := s.stack.map (Scope.add (List.range' s.mechs.length body.size)) }, .unit) := by
      rw [hb1]
      simp only [step, exitScope, enterScope, List.map_cons, Scope.add, List.nil_append]
      by_cases hz : body.size = 0
      · have hnil : ∀ u, body.mechsAt u = [] := fun u =>
          List.length_eq_zero_iff.mp (by rw [Forest.length_mechsAt, hz])
        simp only [hz, List.range'_zero, if_true, hnil]
      · have hne : List.range' s.mechs.length body.size ≠ [] := by
          simpa using hz
        have hsum : ((List.range' s.mechs.length body.size).map
            (weightAt (s.mechs ++ body.mechsAt 1))).sum = body.share := by
          rw [← Forest.length_mechsAt body 1, weightAt_range', Forest.map_weight_mechsAt,
            Forest.sum_alloc _ _ hp.2.1, one_mul]
        have hpos := Forest.share_pos body hp.2.1 hz
        simp only [if_neg hne, hsum, if_neg hpos.ne']
        congr 2
        rw [← Forest.length_mechsAt body 1, scaleAll_range', Forest.mechsAt_mul]
        congr 2; ring
    rw [run_cons, hexit]
    simp only
    obtain ⟨hn1, hn2⟩ := ih2 hp.2.2 { s with
        mechs := s.mechs ++ body.mechsAt (1 * w / body.share)
        stack := s.stack.map (Scope.add (List.range' s.mechs.length body.size)) } hf hgn
    refine ⟨?_, ?_⟩
    · rw [hn1]
      simp only [Forest.mechsAt, Forest.size, List.append_assoc, List.length_append,
        Forest.length_mechsAt, map_add_add]
      congr 3
      rw [List.range'_append_1]
    · intro o ho err
      simp only [List.mem_cons, List.mem_append] at ho
      rcases ho with rfl | ho | rfl | ho
      · simp
      · exact hb2 o ho err
      · simp
      · exact hn2 o ho err

theorem Forest.counts_mechsAt (f : Forest) (h : f.CountOne) (u : ℚ) :
    ∀ m ∈ f.mechsAt u, m.count = 1 := by
  induction f generalizing u with
  | nil => simp [mechsAt]
  | req t sens w c next ih =>
    intro m hm
    simp only [mechsAt, List.mem_cons] at hm
    rcases hm with rfl | hm
    · exact h.1
    · exact ih h.2 _ m hm
  | scope w body next ih1 ih2 =>
    intro m hm
    simp only [mechsAt, List.mem_append] at hm
    rcases hm with hm | hm
    · exact ih1 h.1 _ m hm
    · exact ih2 h.2 _ m hm

theorem Forest.alloc_mul (f : Forest) (u v : ℚ) : (f.alloc u).map (· * v) = f.alloc (u * v) := by
  rw [← map_weight_mechsAt, ← map_weight_mechsAt, ← mechsAt_mul, List.map_map, List.map_map]
  rfl

theorem Forest.length_alloc (f : Forest) (u : ℚ) : (f.alloc u).length = f.size := by
  rw [← map_weight_mechsAt, List.length_map, length_mechsAt]

/-! ## The property -/

/-- **C04**.  Any program of requests and arbitrarily nested scopes with positive weights, run on a
fresh accountant without aggregation restrictions and followed by `compute_budgets`: no call raises,
and the epsilon visible through the `j`-th spec is the `j`-th share of the top-down division of the
pipeline epsilon. -/
theorem C04_scopes_divide_top_down {e d : ℚ} {s0} (h0 : init e d none none = .ok s0)
    (f : Forest) (hp : f.Positive) (hc : f.CountOne) (hg : d ≠ 0 ∨ f.NoGaussian)
    (hne : f.size ≠ 0) :
    (∀ o ∈ (run s0 (f.ops ++ [.compute])).2, ∀ err, o ≠ .raised err) ∧
    (f.alloc (e / f.share)).length = f.size ∧
    ∀ j (hj : j < (f.alloc (e / f.share)).length),
      seesEps (run s0 (f.ops ++ [.compute])).1 j (f.alloc (e / f.share))[j] := by
  obtain ⟨he, hd, -, hs0, -⟩ := init_facts h0
  obtain ⟨h1, h2⟩ := run_forest f hp s0 (by rw [hs0]) (by rw [hs0]; exact hg)
  have hms : f.mechsAt 1 ≠ [] := by
    intro h; apply hne; rw [← Forest.length_mechsAt f 1, h]; rfl
  have hs : (run s0 f.ops).1 = ⟨e, d, none, none, [], [], f.mechsAt 1, false⟩ := by
    rw [h1, hs0]; simp
  have hW : totalWeightEps (f.mechsAt 1) = f.share := by
    rw [totalWeightEps_eq]
    have : (f.mechsAt 1).map (fun m => m.weight * (m.count : ℚ)) = (f.mechsAt 1).map Mech.weight := by
      apply List.map_congr_left
      intro m hm; rw [f.counts_mechsAt hc 1 m hm]; simp
    rw [this, Forest.map_weight_mechsAt, Forest.sum_alloc _ _ hp, one_mul]
  have hpos := f.share_pos hp hne
  have hcomp : step (run s0 f.ops).1 .compute = ((step (run s0 f.ops).1 .compute).1, .unit) ∧
      (step (run s0 f.ops).1 .compute).1.mechs = (f.mechsAt 1).map
        (assign e d f.share (totalWeightDelta (f.mechsAt 1))) := by
    rw [hs]
    simp [step, computeBudgets, checkRestrictions, truthyNum, truthyList, hms, hW]
  rw [run_append]
  simp only [run, List.mem_append, List.mem_singleton]
  refine ⟨?_, f.length_alloc _, ?_⟩
  · rintro o (ho | ho) err
    · exact h2 o ho err
    · rw [ho, hcomp.1]; simp
  · intro j hj
    rw [Forest.length_alloc] at hj
    rw [seesEps_iff]
    rw [hcomp.2]
    have hj1 : j < (f.mechsAt 1).length := by rw [Forest.length_mechsAt]; exact hj
    refine ⟨_, by rw [List.getElem?_map, List.getElem?_eq_getElem hj1]; rfl, ?_⟩
    simp only [assign, if_pos hpos.ne', Option.some.injEq]
    have h3 : (f.alloc (e / f.share)) = ((f.mechsAt 1).map Mech.weight).map (· * (e / f.share)) := by
      rw [Forest.map_weight_mechsAt, Forest.alloc_mul, one_mul]
    simp only [h3, List.getElem_map]
    ring

/-- **C04** (share of a scope).  In the top-down division a scope with at least one mechanism gets
exactly `unit * weight`, whatever is inside it. -/
theorem C04_scope_gets_its_weight (unit w : ℚ) (body : Forest) (hp : body.Positive)
    (hne : body.size ≠ 0) :
    (body.alloc (unit * w / body.share)).sum = unit * w := by
  rw [Forest.sum_alloc _ _ hp]
  have := (body.share_pos hp hne).ne'
  field_simp

/-- A program with nested scopes: the first scope (weight 2) holds two mechanisms and a scope, an
empty scope (weight 7) takes nothing. -/
def demoForest : Forest :=
  .scope 2 (.req .laplace 1 5 1 (.scope 5 (.req .generic 1 9 1 (.req .laplace 1 9 1 .nil)) .nil))
    (.scope 7 .nil (.req .gaussian 1 6 1 .nil))

example : demoForest.Positive ∧ demoForest.CountOne ∧ demoForest.size = 4 ∧
    demoForest.alloc (1 / demoForest.share) = [1/8, 1/16, 1/16, 3/4] := by
  refine ⟨by simp [demoForest, Forest.Positive], by simp [demoForest, Forest.CountOne], by decide, ?_⟩
  norm_num [demoForest, Forest.alloc, Forest.share, Forest.size]

example : ∃ s0, init 1 (1/10) none none = .ok s0 ∧
    seesEps (run s0 (demoForest.ops ++ [.compute])).1 3 (3/4) :=
  ⟨⟨1, 1/10, none, none, [], [], [], false⟩, by norm_num [init], by unfold seesEps; decide +kernel⟩

/-- **C04** (limitation).  With a count above one the share of a scope is no longer its weight: two
scopes of equal weight, one of them with a mechanism of count 3, consume 3/4 and 1/4 of the budget. -/
theorem C04_counts_break_scope_shares : ∃ s0, init 1 0 none none = .ok s0 ∧
    let s := (run s0 [.enter 1, .request .laplace 1 1 3 none, .exit,
                      .enter 1, .request .laplace 1 1 1 none, .exit, .compute]).1
    seesEps s 0 (1/4) ∧ seesEps s 1 (1/4) ∧ (3 : ℚ) * (1/4) ≠ 1 * (1/4) :=
  ⟨_, rfl, by unfold seesEps; decide +kernel, by unfold seesEps; decide +kernel, by norm_num⟩

/-! ## Proportional shares without scopes (C01) -/

/-- One request: type, sensitivity, weight, count. -/
structure Req where
  mtype : MechType
  sens : ℚ
  weight : ℚ
  count : ℤ

/-- The call for a request. -/
def Req.op (r : Req) : Op := .request r.mtype r.sens r.weight r.count none

/-- **C01** (ratio).  Requests outside of scopes with positive weights and counts, followed by
`compute_budgets`: the `j`-th epsilon is `total * w_j / Σ w_i * count_i`, so epsilons are in the ratio
of the weights. -/
theorem C01_epsilon_proportional_to_weight {e d : ℚ} {s0} (h0 : init e d none none = .ok s0)
    (rs : List Req) (hpos : ∀ r ∈ rs, 0 < r.weight ∧ 0 < r.count)
    (hg : d ≠ 0 ∨ ∀ r ∈ rs, r.mtype ≠ .gaussian) (j : Nat) (hj : j < rs.length) :
    seesEps (run s0 (rs.map Req.op ++ [.compute])).1 j
      (e * rs[j].weight / (rs.map fun r => r.weight * (r.count : ℚ)).sum) := by
  obtain ⟨he, hd, -, hs0, -⟩ := init_facts h0
  let f : Forest := rs.foldr (fun r f => .req r.mtype r.sens r.weight r.count f) .nil
  have hops : f.ops = rs.map Req.op := by
    simp only [f]; clear hpos hg hj f
    induction rs with
    | nil => rfl
    | cons r rs ih => simp only [List.foldr_cons, Forest.ops, ih, List.map_cons, Req.op]
  have hms : f.mechsAt 1 = rs.map fun r => ⟨r.mtype, r.sens, r.weight, r.count, none, none⟩ := by
    simp only [f]; clear hpos hg hj hops f
    induction rs with
    | nil => rfl
    | cons r rs ih => simp only [List.foldr_cons, Forest.mechsAt, ih, List.map_cons, one_mul]
  have hP : f.Positive := by
    simp only [f]; clear hg hj hops hms f
    induction rs with
    | nil => trivial
    | cons r rs ih =>
      exact ⟨(hpos r (by simp)).1, ih (fun q hq => hpos q (by simp [hq]))⟩
  have hG : d ≠ 0 ∨ f.NoGaussian := by
    rcases hg with h | h
    · exact .inl h
    · right
      simp only [f]; clear hpos hj hops hms hP f
      induction rs with
      | nil => trivial
      | cons r rs ih => exact ⟨h r (by simp), ih (fun q hq => h q (by simp [hq]))⟩
  obtain ⟨h1, -⟩ := run_forest f hP s0 (by rw [hs0]) (by rw [hs0]; exact hG)
  have hs : (run s0 (rs.map Req.op)).1 = ⟨e, d, none, none, [], [], f.mechsAt 1, false⟩ := by
    rw [← hops, h1, hs0]; simp
  have hW : totalWeightEps (f.mechsAt 1) = (rs.map fun r => r.weight * (r.count : ℚ)).sum := by
    rw [totalWeightEps_eq, hms, List.map_map]; rfl
  have hWpos : 0 < (rs.map fun r => r.weight * (r.count : ℚ)).sum := by
    have hm : ∀ r ∈ rs, 0 < r.weight * (r.count : ℚ) := fun r hr =>
      mul_pos (hpos r hr).1 (by exact_mod_cast (hpos r hr).2)
    exact sum_pos_of_mem rs _ (fun r hr => (hm r hr).le) (List.getElem_mem hj)
      (hm _ (List.getElem_mem hj))
  have hne : f.mechsAt 1 ≠ [] := by
    rw [hms]; intro h; simp at h; rw [h] at hj; simp at hj
  rw [run_append]
  simp only [run]
  rw [seesEps_iff, hs]
  have hj' : j < (f.mechsAt 1).length := by rw [hms]; simpa using hj
  refine ⟨assign e d (rs.map fun r => r.weight * (r.count : ℚ)).sum
    (totalWeightDelta (f.mechsAt 1)) (f.mechsAt 1)[j], ?_, ?_⟩
  · simp [step, computeBudgets, checkRestrictions, truthyNum, truthyList, hne, hW, hj']
  · simp only [assign, if_pos hWpos.ne', hms, List.getElem_map]

example : ∃ s0, init 1 (1/10) none none = .ok s0 ∧
    seesEps (run s0 ([⟨.laplace, 1, 1, 2⟩, ⟨.gaussian, 1, 3, 1⟩].map Req.op ++ [.compute])).1 1 (3/5) :=
  ⟨⟨1, 1/10, none, none, [], [], [], false⟩, by norm_num [init], by unfold seesEps; decide +kernel⟩

end PDP.Budget
