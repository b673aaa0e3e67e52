import Verif.Backend.Labels
import Verif.Budget.Aggregations
import Mathlib.Tactic.FieldSimp
import Mathlib.Tactic.NormNum

/-!
# Annotators (`pipeline_backend.py:183-194`, `:368-374`, `:826-851`, `dp_engine.py:94-107`, `:225-234`, `:607-618`)

`register_annotator` adds an annotator to a list that is global to the process. Each API call of `DPEngine` ends with
`backend.annotate(col, "annotation", params=params, budget=budget)`. `BeamBackend` passes the collection through all
annotators registered at that time; the other backends return it unchanged.

An annotator may itself add stages with the backend it gets; it may not register further annotators (a list that grows
while it is iterated is not modelled). A session ends at the first exception.
-/

namespace PDP.Backend.Annotations

open PDP.Backend (Labels unique)
open PDP.Budget (Agg Op Out State MechType run step announced announce aggWeights)

/-! ### Model -/

/-- The arguments an annotator gets with the collection: the stage name and the keyword arguments of `_annotate`
(`dp_engine.py:611-618`). -/
structure Seen (π : Type) where
  label : String
  params : π
  budget : Option (ℚ × ℚ)

/-- An `Annotator` (`pipeline_backend.py:826-844`): the collection it returns, and the names of the stages it asks the
backend for meanwhile. -/
structure Annotator (C π : Type) where
  apply : C → Seen π → C
  stages : Seen π → List (Option String)

/-- `UniqueLabelsGenerator.unique` (`pipeline_backend.py:211-220`); by `fresh_eq` the loop always stops in time. -/
def fresh (g : Labels) (r : Option String) : String × Labels := (unique (g.used.length + 1) g r).getD ("", g)

/-- A sequence of stages added to the pipeline. -/
def freshAll : Labels → List (Option String) → List String × Labels
  | g, [] => ([], g)
  | g, r :: rs => ((fresh g r).1 :: (freshAll (fresh g r).2 rs).1, (freshAll (fresh g r).2 rs).2)

/-- What `annotate` does: the new collection, what the annotators saw, all labels handed out, the label generator. -/
structure Annotated (C π : Type) where
  col : C
  seen : List (Seen π)
  labels : List String
  gen : Labels

/-- The loop of `BeamBackend.annotate` (`pipeline_backend.py:371-374`). -/
def annotateLoop {C π : Type} (p : π) (b : Option (ℚ × ℚ)) : List (Annotator C π) → Labels → C → Annotated C π
  | [], g, col => ⟨col, [], [], g⟩
  | a :: as, g, col =>
    let u := fresh g (some "annotation")
    let s : Seen π := ⟨u.1, p, b⟩
    let v := freshAll u.2 (a.stages s)
    let r := annotateLoop p b as v.2 (a.apply col s)
    ⟨r.col, s :: r.seen, u.1 :: v.1 ++ r.labels, r.gen⟩

/-- The backends, as far as annotations are concerned: `BeamBackend`, or one of `LocalBackend`, `SparkRDDBackend` and
`MultiProcLocalBackend`, which inherit `PipelineBackend.annotate`. -/
inductive Kind
  | beam
  | other
  deriving DecidableEq

/-- `annotate` (`pipeline_backend.py:183-194` and `:368-374`). -/
def annotate {C π : Type} (k : Kind) (as : List (Annotator C π)) (g : Labels) (col : C) (p : π) (b : Option (ℚ × ℚ)) :
    Annotated C π :=
  match k with
  | .other => ⟨col, [], [], g⟩
  | .beam => if as.isEmpty then ⟨col, [], [], g⟩ else annotateLoop p b as g col

/-- The API calls of `DPEngine` as seen by the accountant: `aggregate` and `select_partitions` make their requests in a
scope (`dp_engine.py:94-107`, `:225-234`), `add_dp_noise` makes one request without a scope (`dp_engine.py:580-609`). -/
inductive EngineCall
  | grouped (a : Agg)
  | noise (t : MechType) (w : ℚ)

/-- The calls on the accountant. -/
def EngineCall.ops : EngineCall → List Op
  | .grouped a => a.ops
  | .noise t w => [.request t 1 1 1 none, .aggregation w]

/-- `budget_weight` of the parameters of the call. -/
def EngineCall.weight : EngineCall → ℚ
  | .grouped a => a.weight
  | .noise _ w => w

/-- What a program does: register an annotator, add stages of its own with the backend, or call the engine (`stages` are
the names of the stages of the call, `col` is the collection they end with). -/
inductive Event (C π : Type)
  | register (a : Annotator C π)
  | stages (rs : List (Option String))
  | call (c : EngineCall) (params : π) (stages : List (Option String)) (col : C)

/-- The global list of annotators, the backend's label generator and the accountant. -/
structure World (C π : Type) where
  annotators : List (Annotator C π)
  gen : Labels
  acct : State

/-- What can be observed of an event: the labels of all stages it added, what annotators saw, and for a call the
collection returned. -/
structure Outcome (C π : Type) where
  labels : List String
  seen : List (Seen π)
  result : Option C

/-- The first exception in a history of the accountant. -/
def firstRaised (outs : List Out) : Option PDP.Budget.Err :=
  outs.findSome? fun o => match o with
    | .raised e => some e
    | _ => none

/-- The stages of an event; only Beam has named stages. -/
def addStages (k : Kind) (g : Labels) (rs : List (Option String)) : List String × Labels :=
  match k with
  | .beam => freshAll g rs
  | .other => ([], g)

/-- One event. The budget passed to `_annotate` is the value returned by `_compute_budget_for_aggregation`
(`dp_engine.py:105-107`, `:231-234`, `:607-609`). -/
def event {C π : Type} (k : Kind) (w : World C π) : Event C π → Except PDP.Budget.Err (World C π × Outcome C π)
  | .register a => .ok ({ w with annotators := w.annotators ++ [a] }, ⟨[], [], none⟩)
  | .stages rs => .ok ({ w with gen := (addStages k w.gen rs).2 }, ⟨(addStages k w.gen rs).1, [], none⟩)
  | .call c p rs col =>
    match firstRaised (run w.acct c.ops).2 with
    | some e => .error e
    | none =>
      let v := addStages k w.gen rs
      let r := annotate k w.annotators v.2 col p (announced (run w.acct c.ops).2).head?.join
      .ok ({ w with gen := r.gen, acct := (run w.acct c.ops).1 }, ⟨v.1 ++ r.labels, r.seen, some r.col⟩)

/-- A sequence of events. -/
def session {C π : Type} (k : Kind) :
    World C π → List (Event C π) → Except PDP.Budget.Err (World C π × List (Outcome C π))
  | w, [] => .ok (w, [])
  | w, e :: es =>
    match event k w e with
    | .error err => .error err
    | .ok (w, o) =>
      match session k w es with
      | .error err => .error err
      | .ok (w, os) => .ok (w, o :: os)

/-! ### Specification -/

/-- The annotators that a list of events registers. -/
def registered {C π : Type} : List (Event C π) → List (Annotator C π)
  | [] => []
  | .register a :: es => a :: registered es
  | _ :: es => registered es

/-- The calls of a list of events. -/
def callsOf {C π : Type} : List (Event C π) → List EngineCall
  | [] => []
  | .call c _ _ _ :: es => c :: callsOf es
  | _ :: es => callsOf es

/-! ### Lemmas -/

theorem fresh_eq (g : Labels) (r : Option String) : unique (g.used.length + 1) g r = some (fresh g r) := by
  obtain ⟨x, hx⟩ : ∃ x, unique (g.used.length + 1) g r = some x := by
    unfold unique
    dsimp only
    split
    · exact PDP.Backend.search_stops g _ _ 1 (by omega)
    · exact ⟨_, rfl⟩
  simp [fresh, hx]

theorem fresh_spec (g : Labels) (r : Option String) :
    (fresh g r).1 ∉ g.used ∧ (fresh g r).2.used = (fresh g r).1 :: g.used := by
  obtain ⟨h1, h2⟩ := PDP.Backend.unique_spec (fresh_eq g r)
  exact ⟨h1, by rw [h2]⟩

/-- The labels `ls` are new and `g'` is the generator after handing them out. -/
def Fresh (g : Labels) (ls : List String) (g' : Labels) : Prop :=
  ls.Nodup ∧ (∀ l ∈ ls, l ∉ g.used) ∧ ∀ l, l ∈ g'.used ↔ l ∈ ls ∨ l ∈ g.used

theorem Fresh.nil (g : Labels) : Fresh g [] g := ⟨List.nodup_nil, by simp, by simp⟩

theorem Fresh.append {g g' g'' : Labels} {a b : List String} (h1 : Fresh g a g') (h2 : Fresh g' b g'') :
    Fresh g (a ++ b) g'' := by
  refine ⟨?_, ?_, ?_⟩
  · refine List.nodup_append.mpr ⟨h1.1, h2.1, ?_⟩
    rintro x hx y hy rfl
    exact h2.2.1 x hy ((h1.2.2 x).mpr (.inl hx))
  · intro l hl hu
    rcases List.mem_append.mp hl with h | h
    · exact h1.2.1 l h hu
    · exact h2.2.1 l h ((h1.2.2 l).mpr (.inr hu))
  · intro l
    rw [h2.2.2, h1.2.2, List.mem_append]
    tauto

theorem Fresh.one (g : Labels) (r : Option String) : Fresh g [(fresh g r).1] (fresh g r).2 := by
  obtain ⟨h1, h2⟩ := fresh_spec g r
  exact ⟨by simp, by simpa using h1, fun l => by rw [h2]; simp⟩

theorem freshAll_fresh (rs : List (Option String)) (g : Labels) : Fresh g (freshAll g rs).1 (freshAll g rs).2 := by
  induction rs generalizing g with
  | nil => exact Fresh.nil g
  | cons r rs ih => exact (Fresh.one g r).append (ih _)

theorem addStages_fresh (k : Kind) (g : Labels) (rs : List (Option String)) :
    Fresh g (addStages k g rs).1 (addStages k g rs).2 := by
  cases k
  · exact freshAll_fresh rs g
  · exact Fresh.nil g

theorem annotateLoop_spec {C π : Type} (p : π) (b : Option (ℚ × ℚ)) (as : List (Annotator C π)) (g : Labels) (col : C) :
    let r := annotateLoop p b as g col
    Fresh g r.labels r.gen ∧ (r.seen.map Seen.label).Sublist r.labels ∧ r.seen.length = as.length ∧
      (∀ s ∈ r.seen, s.params = p ∧ s.budget = b) ∧
      r.col = (as.zip r.seen).foldl (fun c x => x.1.apply c x.2) col := by
  induction as generalizing g col with
  | nil => exact ⟨Fresh.nil g, by simp [annotateLoop], rfl, by simp [annotateLoop], rfl⟩
  | cons a as ih =>
    intro r
    set u := fresh g (some "annotation") with hu
    set s : Seen π := ⟨u.1, p, b⟩ with hs
    set v := freshAll u.2 (a.stages s) with hv
    obtain ⟨h1, h2, h3, h4, h5⟩ := ih v.2 (a.apply col s)
    set q := annotateLoop p b as v.2 (a.apply col s) with hq
    have hr : r = ⟨q.col, s :: q.seen, u.1 :: v.1 ++ q.labels, q.gen⟩ := rfl
    rw [hr]
    refine ⟨?_, ?_, by simp [h3], ?_, ?_⟩
    · exact ((Fresh.one g _).append (freshAll_fresh (a.stages s) u.2)).append h1
    · simp only [List.map_cons, List.cons_append]
      exact (h2.trans (List.sublist_append_right _ _)).cons_cons _
    · intro x hx
      rcases List.mem_cons.mp hx with rfl | hx
      · exact ⟨rfl, rfl⟩
      · exact h4 x hx
    · simpa using h5

/-- The annotators a backend applies. -/
def applied {C π : Type} (k : Kind) (as : List (Annotator C π)) : List (Annotator C π) :=
  match k with
  | .beam => as
  | .other => []

theorem annotate_spec {C π : Type} (k : Kind) (p : π) (b : Option (ℚ × ℚ)) (as : List (Annotator C π)) (g : Labels)
    (col : C) :
    let r := annotate k as g col p b
    Fresh g r.labels r.gen ∧ (r.seen.map Seen.label).Sublist r.labels ∧ r.seen.length = (applied k as).length ∧
      (∀ s ∈ r.seen, s.params = p ∧ s.budget = b) ∧
      r.col = ((applied k as).zip r.seen).foldl (fun c x => x.1.apply c x.2) col := by
  cases k with
  | other => exact ⟨Fresh.nil g, by simp [annotate], rfl, by simp [annotate], rfl⟩
  | beam =>
    cases as with
    | nil => exact ⟨Fresh.nil g, by simp [annotate], rfl, by simp [annotate], rfl⟩
    | cons a as => exact annotateLoop_spec p b (a :: as) g col

/-- What holds of one event. -/
theorem event_spec {C π : Type} {k : Kind} {w w' : World C π} {e : Event C π} {o : Outcome C π}
    (h : event k w e = .ok (w', o)) :
    Fresh w.gen o.labels w'.gen ∧ (o.seen.map Seen.label).Sublist o.labels ∧
      w'.annotators = w.annotators ++ registered [e] ∧
      w'.acct = (run w.acct ((callsOf [e]).flatMap EngineCall.ops)).1 := by
  cases e with
  | register a =>
    simp only [event, Except.ok.injEq, Prod.mk.injEq] at h
    obtain ⟨rfl, rfl⟩ := h
    exact ⟨Fresh.nil _, by simp, rfl, rfl⟩
  | stages rs =>
    simp only [event, Except.ok.injEq, Prod.mk.injEq] at h
    obtain ⟨rfl, rfl⟩ := h
    exact ⟨addStages_fresh k _ rs, by simp, by simp [registered], rfl⟩
  | call c p rs col =>
    simp only [event] at h
    split at h
    · cases h
    · simp only [Except.ok.injEq, Prod.mk.injEq] at h
      obtain ⟨rfl, rfl⟩ := h
      obtain ⟨h1, h2, -, -, -⟩ := annotate_spec k p (announced (run w.acct c.ops).2).head?.join w.annotators
        (addStages k w.gen rs).2 col
      refine ⟨(addStages_fresh k w.gen rs).append h1, h2.trans (List.sublist_append_right _ _), by simp [registered], ?_⟩
      simp [callsOf]

theorem registered_cons {C π : Type} (e : Event C π) (es : List (Event C π)) :
    registered (e :: es) = registered [e] ++ registered es := by cases e <;> rfl

theorem callsOf_cons {C π : Type} (e : Event C π) (es : List (Event C π)) :
    callsOf (e :: es) = callsOf [e] ++ callsOf es := by cases e <;> rfl

theorem session_cons {C π : Type} {k : Kind} {w w' : World C π} {e : Event C π} {es : List (Event C π)}
    {os : List (Outcome C π)} (h : session k w (e :: es) = .ok (w', os)) :
    ∃ w1 o os', event k w e = .ok (w1, o) ∧ session k w1 es = .ok (w', os') ∧ os = o :: os' := by
  rw [session] at h
  rcases he : event k w e with err | ⟨w1, o⟩
  · rw [he] at h; cases h
  · rw [he] at h
    dsimp only at h
    rcases hs : session k w1 es with err | ⟨w2, os'⟩
    · rw [hs] at h; cases h
    · rw [hs] at h
      simp only [Except.ok.injEq, Prod.mk.injEq] at h
      obtain ⟨rfl, rfl⟩ := h
      exact ⟨w1, o, os', rfl, hs, rfl⟩

theorem session_spec {C π : Type} {k : Kind} (es : List (Event C π)) {w w' : World C π} {os : List (Outcome C π)}
    (h : session k w es = .ok (w', os)) :
    Fresh w.gen (os.flatMap Outcome.labels) w'.gen ∧ (∀ o ∈ os, (o.seen.map Seen.label).Sublist o.labels) ∧
      os.length = es.length ∧ w'.annotators = w.annotators ++ registered es ∧
      w'.acct = (run w.acct ((callsOf es).flatMap EngineCall.ops)).1 := by
  induction es generalizing w os with
  | nil =>
    simp only [session, Except.ok.injEq, Prod.mk.injEq] at h
    obtain ⟨rfl, rfl⟩ := h
    exact ⟨Fresh.nil _, by simp, rfl, by simp [registered], rfl⟩
  | cons e es ih =>
    obtain ⟨w1, o, os', h1, h2, rfl⟩ := session_cons h
    obtain ⟨a1, a2, a3, a4⟩ := event_spec h1
    obtain ⟨b1, b2, b3, b4, b5⟩ := ih h2
    refine ⟨?_, ?_, by simp [b3], ?_, ?_⟩
    · rw [List.flatMap_cons]; exact a1.append b1
    · intro x hx
      rcases List.mem_cons.mp hx with rfl | hx
      · exact a2
      · exact b2 x hx
    · rw [b4, a3, registered_cons e es, List.append_assoc]
    · rw [b5, a4, callsOf_cons e es, List.flatMap_append, PDP.Budget.run_append]

theorem session_append {C π : Type} {k : Kind} (es fs : List (Event C π)) {w w' : World C π} {os : List (Outcome C π)}
    (h : session k w (es ++ fs) = .ok (w', os)) :
    ∃ w1 os1 os2, session k w es = .ok (w1, os1) ∧ session k w1 fs = .ok (w', os2) ∧ os = os1 ++ os2 := by
  induction es generalizing w os with
  | nil => exact ⟨w, [], os, rfl, h, rfl⟩
  | cons e es ih =>
    obtain ⟨w1, o, os', h1, h2, rfl⟩ := session_cons h
    obtain ⟨w2, os1, os2, g1, g2, rfl⟩ := ih h2
    exact ⟨w2, o :: os1, os2, by simp [session, h1, g1], g2, rfl⟩

theorem totals_step (s : State) (op : Op) :
    (step s op).1.totalEps = s.totalEps ∧ (step s op).1.totalDelta = s.totalDelta := by
  cases op with
  | request t sens w c n =>
    simp only [step, PDP.Budget.requestBudget]
    split_ifs <;> simp [PDP.Budget.register]
  | enter w => simp [step, PDP.Budget.enterScope]
  | exit =>
    have : (PDP.Budget.exitScope s).1.totalEps = s.totalEps ∧ (PDP.Budget.exitScope s).1.totalDelta = s.totalDelta := by
      unfold PDP.Budget.exitScope
      split
      · simp
      · simp only; split_ifs <;> simp
    simp only [step]
    split <;> rename_i heq <;> rw [heq] at this <;> exact this
  | aggregation w =>
    have : (PDP.Budget.computeBudgetForAggregation s w).1.totalEps = s.totalEps ∧
        (PDP.Budget.computeBudgetForAggregation s w).1.totalDelta = s.totalDelta := by
      unfold PDP.Budget.computeBudgetForAggregation
      simp only
      split
      · simp
      · split
        · split_ifs <;> simp
        · simp
    simp only [step]
    split <;> rename_i heq <;> rw [heq] at this <;> exact this
  | compute =>
    rcases PDP.Budget.compute_cases s with ⟨_, h⟩ | ⟨_, h⟩ | ⟨_, _, ⟨_, h⟩ | ⟨_, _, h⟩ | ⟨_, _, h⟩⟩ <;> rw [h] <;> simp
  | readEps i => simp [step]
  | readDelta i => simp [step]

theorem totals_run (s : State) (ops : List Op) :
    (run s ops).1.totalEps = s.totalEps ∧ (run s ops).1.totalDelta = s.totalDelta := by
  induction ops generalizing s with
  | nil => exact ⟨rfl, rfl⟩
  | cons op ops ih =>
    rw [PDP.Budget.run_cons]
    obtain ⟨h1, h2⟩ := ih (step s op).1
    obtain ⟨g1, g2⟩ := totals_step s op
    exact ⟨h1.trans g1, h2.trans g2⟩

theorem announced_step (s : State) (op : Op) (hn : s.expectedNum ≠ some 0)
    (h : firstRaised [(step s op).2] = none) :
    announced [(step s op).2]
      = (aggWeights [op]).map (announce s.totalEps s.totalDelta s.expectedNum s.expectedWeights) := by
  cases op with
  | request t sens w c n =>
    simp only [step, PDP.Budget.requestBudget]
    split_ifs <;> simp [announced, aggWeights]
  | enter w => rfl
  | exit =>
    simp only [step]
    split <;> simp [announced, aggWeights]
  | aggregation w =>
    simp only [step, PDP.Budget.computeBudgetForAggregation] at h ⊢
    cases hnum : s.expectedNum with
    | some n =>
      have : n ≠ 0 := by rintro rfl; exact hn hnum
      simp [PDP.Budget.truthyNum, this, announced, announce, aggWeights]
    | none =>
      cases hw : s.expectedWeights with
      | none => simp [PDP.Budget.truthyNum, PDP.Budget.truthyList, announced, announce, aggWeights]
      | some l =>
        cases l with
        | nil => simp [PDP.Budget.truthyNum, PDP.Budget.truthyList, announced, announce, aggWeights]
        | cons x l =>
          rw [hnum, hw] at h
          simp only [PDP.Budget.truthyNum, PDP.Budget.truthyList] at h ⊢
          by_cases hs : (x :: l).sum = 0
          · rw [if_pos hs] at h; simp [firstRaised] at h
          · rw [if_neg hs]; simp [announced, announce, aggWeights]
  | compute =>
    rcases PDP.Budget.compute_cases s with ⟨_, h⟩ | ⟨_, h⟩ | ⟨_, _, ⟨_, h⟩ | ⟨_, _, h⟩ | ⟨_, _, h⟩⟩ <;> rw [h] <;>
      simp [announced, aggWeights]
  | readEps i =>
    simp only [step, PDP.Budget.readField]
    split
    · simp [announced, aggWeights]
    · split <;> simp [announced, aggWeights]
  | readDelta i =>
    simp only [step, PDP.Budget.readField]
    split
    · simp [announced, aggWeights]
    · split <;> simp [announced, aggWeights]

theorem announced_run (ops : List Op) (s : State) (hn : s.expectedNum ≠ some 0)
    (h : firstRaised (run s ops).2 = none) :
    announced (run s ops).2
      = (aggWeights ops).map (announce s.totalEps s.totalDelta s.expectedNum s.expectedWeights) := by
  induction ops generalizing s with
  | nil => rfl
  | cons op ops ih =>
    rw [PDP.Budget.run_cons] at h ⊢
    simp only [firstRaised, List.findSome?_cons] at h
    have h1 : firstRaised [(step s op).2] = none := by
      simp only [firstRaised, List.findSome?_cons, List.findSome?_nil]
      split at h
      · cases h
      · rfl
    have h2 : firstRaised (run (step s op).1 ops).2 = none := by
      split at h
      · cases h
      · exact h
    obtain ⟨-, g2, g3⟩ := PDP.Budget.actualWeights_step s op
    obtain ⟨t1, t2⟩ := totals_step s op
    have := ih (step s op).1 (by rw [g2]; exact hn) h2
    rw [PDP.Budget.announced_cons, this, announced_step s op hn h1, PDP.Budget.aggWeights_cons op ops, List.map_append,
      g2, g3, t1, t2]

theorem aggWeights_append (a b : List Op) : aggWeights (a ++ b) = aggWeights a ++ aggWeights b := by
  induction a with
  | nil => rfl
  | cons x a ih =>
    rw [List.cons_append, PDP.Budget.aggWeights_cons x, ih, PDP.Budget.aggWeights_cons x a, List.append_assoc]

theorem aggWeights_forest (f : PDP.Budget.Forest) : aggWeights f.ops = [] := by
  induction f with
  | nil => rfl
  | req t s w c next ih => simpa [PDP.Budget.Forest.ops, aggWeights] using ih
  | scope w body next ih1 ih2 => simp [PDP.Budget.Forest.ops, aggWeights, aggWeights_append, ih1, ih2]

theorem aggWeights_call (c : EngineCall) : aggWeights c.ops = [c.weight] := by
  cases c with
  | grouped a => simp [EngineCall.ops, Agg.ops, aggWeights, aggWeights_append, aggWeights_forest, EngineCall.weight]
  | noise t w => rfl

theorem aggWeights_calls (cs : List EngineCall) : aggWeights (cs.flatMap EngineCall.ops) = cs.map EngineCall.weight := by
  induction cs with
  | nil => rfl
  | cons c cs ih => simp [aggWeights_append, aggWeights_call, ih]

/-! ### Properties -/

/-- **C95.** In every session, with Beam: a call returns what the annotators registered before the call make of its
collection, in the order of their registration, each applied exactly once; annotators registered later have no part in it. All
of them see the parameters of the call and the budget of the call (`announce`): nothing if the accountant was created without
restrictions, an equal share of the total if it was created with `num_aggregations`, and the share of its weight if it was
created with `aggregation_weights`. -/
theorem C95_annotators_see_every_call {C π : Type} {e d : ℚ} {num : Option ℤ} {ws : Option (List ℚ)} {s0 : State}
    (h0 : PDP.Budget.init e d num ws = .ok s0) (before : List (Annotator C π)) (suffix : String)
    (es fs : List (Event C π)) (c : EngineCall) (p : π) (rs : List (Option String)) (col : C)
    {w' : World C π} {os : List (Outcome C π)}
    (h : session .beam ⟨before, Labels.new suffix, s0⟩ (es ++ .call c p rs col :: fs) = .ok (w', os)) :
    ∃ o seen, os[es.length]? = some o ∧ o.seen = seen ∧
      seen.length = (before ++ registered es).length ∧
      o.result = some (((before ++ registered es).zip seen).foldl (fun c x => x.1.apply c x.2) col) ∧
      ∀ s ∈ seen, s.params = p ∧ s.budget = announce e d num ws c.weight := by
  obtain ⟨-, -, -, hs0, -, hnp⟩ := PDP.Budget.init_facts h0
  obtain ⟨w1, os1, os2, h1, h2, rfl⟩ := session_append es _ h
  obtain ⟨w2, o, os', h3, h4, rfl⟩ := session_cons h2
  obtain ⟨-, -, hlen, hann, hacct⟩ := session_spec es h1
  refine ⟨o, o.seen, by simp [← hlen], rfl, ?_⟩
  simp only [event] at h3
  split at h3
  · cases h3
  · rename_i hraise
    simp only [Except.ok.injEq, Prod.mk.injEq] at h3
    obtain ⟨-, rfl⟩ := h3
    obtain ⟨-, -, a3, a4, a5⟩ := annotate_spec .beam p (announced (run w1.acct c.ops).2).head?.join w1.annotators
      (addStages .beam w1.gen rs).2 col
    have happ : applied .beam w1.annotators = before ++ registered es := hann
    rw [happ] at a3 a5
    refine ⟨a3, by rw [← a5], fun s hs => ⟨(a4 s hs).1, ?_⟩⟩
    rw [(a4 s hs).2]
    obtain ⟨-, g2, g3⟩ := PDP.Budget.actualWeights_run s0 ((callsOf es).flatMap EngineCall.ops)
    obtain ⟨t1, t2⟩ := totals_run s0 ((callsOf es).flatMap EngineCall.ops)
    simp only at hacct
    rw [← hacct] at g2 g3 t1 t2
    have hne : w1.acct.expectedNum ≠ some 0 := by
      rw [g2, hs0]
      intro hz
      exact absurd (hnp 0 hz) (by simp)
    rw [announced_run c.ops w1.acct hne hraise, aggWeights_call, g2, g3, t1, t2, hs0]
    rfl

/-- **C95.** On every other backend no annotator is ever called, and a call returns its collection. -/
theorem C95_only_beam_annotates {C π : Type} (w : World C π) (es fs : List (Event C π)) (c : EngineCall) (p : π)
    (rs : List (Option String)) (col : C) {w' : World C π} {os : List (Outcome C π)}
    (h : session .other w (es ++ .call c p rs col :: fs) = .ok (w', os)) :
    ∃ o, os[es.length]? = some o ∧ o.seen = [] ∧ o.result = some col := by
  obtain ⟨w1, os1, os2, h1, h2, rfl⟩ := session_append es _ h
  obtain ⟨w2, o, os', h3, h4, rfl⟩ := session_cons h2
  obtain ⟨-, -, hlen, -, -⟩ := session_spec es h1
  refine ⟨o, by simp [← hlen], ?_⟩
  simp only [event] at h3
  split at h3
  · cases h3
  · simp only [Except.ok.injEq, Prod.mk.injEq] at h3
    obtain ⟨-, rfl⟩ := h3
    exact ⟨rfl, rfl⟩

/-- **C95.** The stage names that annotators get are different from each other, across all calls and annotators, and from the
names of all other stages, those of the engine, of the program and of the annotators themselves. -/
theorem C95_annotation_stages_are_unique {C π : Type} (k : Kind) (before : List (Annotator C π)) (suffix : String)
    (s0 : State) (es : List (Event C π)) {w' : World C π} {os : List (Outcome C π)}
    (h : session k ⟨before, Labels.new suffix, s0⟩ es = .ok (w', os)) :
    (os.flatMap Outcome.labels).Nodup ∧ ∀ o ∈ os, (o.seen.map Seen.label).Sublist o.labels := by
  obtain ⟨h1, h2, -⟩ := session_spec es h
  exact ⟨h1.1, h2⟩

/-- **C95.** If every annotator returns a collection with the elements it got, then so does every call, on every backend:
annotators do not change the results, whatever the budgets and names are. -/
theorem C95_results_are_kept {C π M : Type} (elements : C → M) (k : Kind) (w : World C π)
    (es fs : List (Event C π)) (c : EngineCall) (p : π) (rs : List (Option String)) (col : C)
    (hkeep : ∀ a ∈ w.annotators ++ registered es, ∀ x s, elements (a.apply x s) = elements x)
    {w' : World C π} {os : List (Outcome C π)} (h : session k w (es ++ .call c p rs col :: fs) = .ok (w', os)) :
    ∃ o out, os[es.length]? = some o ∧ o.result = some out ∧ elements out = elements col := by
  obtain ⟨w1, os1, os2, h1, h2, rfl⟩ := session_append es _ h
  obtain ⟨w2, o, os', h3, h4, rfl⟩ := session_cons h2
  obtain ⟨-, -, hlen, hann, -⟩ := session_spec es h1
  have ho : (os1 ++ o :: os')[es.length]? = some o := by simp [← hlen]
  simp only [event] at h3
  split at h3
  · cases h3
  · simp only [Except.ok.injEq, Prod.mk.injEq] at h3
    obtain ⟨-, rfl⟩ := h3
    refine ⟨_, _, ho, rfl, ?_⟩
    obtain ⟨-, -, -, -, a5⟩ := annotate_spec k p (announced (run w1.acct c.ops).2).head?.join w1.annotators
      (addStages k w1.gen rs).2 col
    rw [a5]
    have hk : ∀ a ∈ applied k w1.annotators, ∀ x s, elements (a.apply x s) = elements x := by
      intro a ha
      cases k with
      | beam => exact hkeep a (hann ▸ ha)
      | other => exact absurd ha (by simp [applied])
    generalize applied k w1.annotators = as at hk
    generalize (annotate k w1.annotators (addStages k w1.gen rs).2 col p
      (announced (run w1.acct c.ops).2).head?.join).seen = seen
    clear a5 ho h h2
    induction as generalizing col seen with
    | nil => rfl
    | cons a as ih =>
      cases seen with
      | nil => rfl
      | cons s seen =>
        rw [List.zip_cons_cons, List.foldl_cons, ih _ (fun b hb => hk b (by simp [hb])) seen, hk a (by simp)]

/-- **C95.** Annotators have no influence on the accountant: the same calls without any annotator leave it in the same state,
and raise the same exception if they raise one. -/
theorem C95_budgets_are_kept {C π : Type} (k k' : Kind) (w : World C π) (es : List (Event C π)) (g : Labels) :
    (session k w es).map (fun r => r.1.acct)
      = (session k' ⟨[], g, w.acct⟩ ((callsOf es).map fun c => Event.call (C := Unit) (π := Unit) c () [] ())).map
          (fun r => r.1.acct) := by
  induction es generalizing w g with
  | nil => rfl
  | cons e es ih =>
    have key : ∀ w1 : World C π, ∀ g1 : Labels, (session k w1 es).map (fun r => r.1.acct)
        = (session k' ⟨[], g1, w1.acct⟩ ((callsOf es).map fun c => Event.call (C := Unit) (π := Unit) c () [] ())).map
          (fun r => r.1.acct) := fun w1 g1 => ih w1 g1
    have unfoldMap : ∀ {C π : Type} (k : Kind) (w : World C π) (e : Event C π) (es : List (Event C π)),
        (session k w (e :: es)).map (fun r => r.1.acct) = match event k w e with
          | .error err => .error err
          | .ok (w1, _) => (session k w1 es).map (fun r => r.1.acct) := by
      intro C π k w e es
      rw [session]
      rcases event k w e with err | ⟨w1, o⟩
      · rfl
      · dsimp only
        rcases session k w1 es with err | ⟨w2, os⟩ <;> rfl
    rw [unfoldMap]
    cases e with
    | register a => exact key _ g
    | stages rs => exact key _ g
    | call c p rs col =>
      rw [callsOf, List.map_cons, unfoldMap]
      simp only [event]
      cases firstRaised (run w.acct c.ops).2 with
      | some err => rfl
      | none => exact key _ _

/-- **C95.** If the accountant was created with `num_aggregations` or non-empty `aggregation_weights` and `compute_budgets` accepts
the calls of the session, then the budgets of the annotations, one per call, add up to the total budget, epsilon and delta. -/
theorem C95_annotated_budgets_add_up {C π : Type} {e d : ℚ} {num : Option ℤ} {ws : Option (List ℚ)} {s0 : State}
    (h0 : PDP.Budget.init e d num ws = .ok s0)
    (hres : num ≠ none ∨ ∃ x l, ws = some (x :: l) ∧ (x :: l).sum ≠ 0)
    (before : List (Annotator C π)) (hbefore : before ≠ []) (suffix : String) (es : List (Event C π))
    {w' : World C π} {os : List (Outcome C π)}
    (h : session .beam ⟨before, Labels.new suffix, s0⟩ es = .ok (w', os))
    (hcompute : (step w'.acct .compute).2 = .unit) :
    ∃ budgets : List (ℚ × ℚ),
      os.filterMap (fun o => o.seen.head?.map Seen.budget) = budgets.map some ∧
      budgets.length = (callsOf es).length ∧
      (budgets.map Prod.fst).sum = e ∧ (budgets.map Prod.snd).sum = d := by
  obtain ⟨-, -, -, hs0, hboth, hnp⟩ := PDP.Budget.init_facts h0
  obtain ⟨-, -, -, -, hacct⟩ := session_spec es h
  -- one budget per call
  have hb : ∀ (es : List (Event C π)) (w w' : World C π) (os : List (Outcome C π)), w.annotators ≠ [] →
      w.acct.totalEps = e → w.acct.totalDelta = d → w.acct.expectedNum = num → w.acct.expectedWeights = ws →
      session .beam w es = .ok (w', os) →
      os.filterMap (fun o => o.seen.head?.map Seen.budget)
        = (callsOf es).map fun c => announce e d num ws c.weight := by
    intro es
    induction es with
    | nil =>
      intro w w' os _ _ _ _ _ h
      simp only [session, Except.ok.injEq, Prod.mk.injEq] at h
      obtain ⟨-, rfl⟩ := h
      rfl
    | cons ev es ih =>
      intro w w' os hne h1 h2 h3 h4 h
      obtain ⟨w1, o, os', g1, g2, rfl⟩ := session_cons h
      obtain ⟨-, -, a3, a4⟩ := event_spec g1
      obtain ⟨t1, t2⟩ := totals_run w.acct ((callsOf [ev]).flatMap EngineCall.ops)
      obtain ⟨-, t3, t4⟩ := PDP.Budget.actualWeights_run w.acct ((callsOf [ev]).flatMap EngineCall.ops)
      rw [← a4] at t1 t2 t3 t4
      have hrest := ih w1 w' os' (by rw [a3]; simp [hne]) (t1.trans h1) (t2.trans h2) (t3.trans h3) (t4.trans h4) g2
      cases ev with
      | register a =>
        simp only [event, Except.ok.injEq, Prod.mk.injEq] at g1
        obtain ⟨-, rfl⟩ := g1
        rw [List.filterMap_cons]
        simpa [callsOf] using hrest
      | stages rs =>
        simp only [event, Except.ok.injEq, Prod.mk.injEq] at g1
        obtain ⟨-, rfl⟩ := g1
        rw [List.filterMap_cons]
        simpa [callsOf] using hrest
      | call c p rs col =>
        simp only [event] at g1
        split at g1
        · cases g1
        · rename_i hraise
          simp only [Except.ok.injEq, Prod.mk.injEq] at g1
          obtain ⟨-, rfl⟩ := g1
          obtain ⟨-, -, b3, b4, -⟩ := annotate_spec .beam p (announced (run w.acct c.ops).2).head?.join w.annotators
            (addStages .beam w.gen rs).2 col
          have hz : w.acct.expectedNum ≠ some 0 := by
            rw [h3]; intro hz; exact absurd (hnp 0 hz) (by simp)
          have hann : (announced (run w.acct c.ops).2).head?.join = announce e d num ws c.weight := by
            rw [announced_run c.ops w.acct hz hraise, aggWeights_call, h1, h2, h3, h4]; rfl
          rw [hann] at b3 b4 ⊢
          generalize annotate .beam w.annotators (addStages .beam w.gen rs).2 col p (announce e d num ws c.weight) = r
            at b3 b4
          have hlen : r.seen ≠ [] := by
            intro hr
            rw [hr] at b3
            exact hne (List.eq_nil_of_length_eq_zero (by simpa [applied] using b3.symm))
          obtain ⟨s, sl, hsl⟩ := List.exists_cons_of_ne_nil hlen
          have hs := (b4 s (by rw [hsl]; simp)).2
          simp only [List.filterMap_cons, hsl, List.head?_cons, Option.map_some, hs, hrest, callsOf, List.map_cons]
  have hbud := hb es ⟨before, Labels.new suffix, s0⟩ w' os hbefore (by rw [hs0]) (by rw [hs0]) (by rw [hs0])
    (by rw [hs0]) h
  -- the restrictions hold
  have hacct' : w'.acct = (run s0 ((callsOf es).flatMap EngineCall.ops)).1 := hacct
  have hok := (PDP.Budget.C05_restrictions_enforced (ops := (callsOf es).flatMap EngineCall.ops) h0).not.mp
    (by rw [← hacct', hcompute]; simp)
  rw [aggWeights_calls] at hok
  push Not at hok
  obtain ⟨hok1, hok2⟩ := hok
  rw [hbud]
  cases num with
  | some n =>
    have hn0 : (0 : ℤ) < n := hnp n rfl
    have hn : ((n : ℤ) : ℚ) ≠ 0 := by exact_mod_cast hn0.ne'
    obtain ⟨hlen, -⟩ := hok1 n rfl
    refine ⟨(callsOf es).map fun _ => (e / n, d / n), by simp [announce], by simp, ?_, ?_⟩
    all_goals
      have hl : ((callsOf es).length : ℚ) = n := by
        have : (((callsOf es).length : ℤ) : ℚ) = (n : ℚ) := by exact_mod_cast (by simpa using hlen)
        exact_mod_cast this
      simp [hl]
      field_simp
  | none =>
    rcases hres with hres | ⟨x, l, rfl, hsum⟩
    · exact absurd rfl hres
    have hw : (callsOf es).map EngineCall.weight = x :: l := hok2 (x :: l) rfl (by simp)
    have hmul : ∀ (t S : ℚ) (cs : List EngineCall),
        (cs.map fun c => t * (c.weight / S)).sum = t * ((cs.map EngineCall.weight).sum / S) := by
      intro t S cs
      induction cs with
      | nil => simp
      | cons c cs ih => rw [List.map_cons, List.sum_cons, ih, List.map_cons, List.sum_cons]; ring
    refine ⟨(callsOf es).map fun c => (e * (c.weight / (x :: l).sum), d * (c.weight / (x :: l).sum)),
      by simp [announce], by simp, ?_, ?_⟩
    · rw [List.map_map]
      refine (hmul e _ (callsOf es)).trans ?_
      rw [hw]; field_simp
    · rw [List.map_map]
      refine (hmul d _ (callsOf es)).trans ?_
      rw [hw]; field_simp

/-- An annotator that adds a note to the collection, using one stage of its own with the name it got. -/
def noteAnnotator (note : String) : Annotator (List String) String :=
  ⟨fun col s => col ++ [note ++ " " ++ s.params], fun s => [some s.label]⟩

/-- An accountant for two aggregations; an annotator registered before the session and one registered between the calls. -/
def exampleSession : Except PDP.Budget.Err (World (List String) String × List (Outcome (List String) String)) :=
  match PDP.Budget.init 3 (1 / 100) (some 2) none with
  | .error e => .error e
  | .ok s0 => session .beam ⟨[noteAnnotator "a"], Labels.new "", s0⟩
      [.stages [some "annotation"],
       .call (.grouped ⟨1, .req .laplace 1 1 1 (.req .gaussian 1 1 1 .nil)⟩) "first" [some "map"] ["x"],
       .register (noteAnnotator "b"),
       .call (.noise .laplace 1) "second" [some "map"] ["y"]]

/-- The hypotheses of the theorems hold for the session, and this is what is observed. -/
example : (exampleSession.map fun r => r.2.map Outcome.labels).toOption
    = some [["annotation"], ["map", "annotation_1", "annotation_1_1"], [],
        ["map_1", "annotation_2", "annotation_2_1", "annotation_3", "annotation_3_1"]] := by
  decide +kernel

example : (exampleSession.map fun r => r.2.map Outcome.result).toOption
    = some [none, some ["x", "a first"], none, some ["y", "a second", "b second"]] := by
  decide +kernel

example : (exampleSession.map fun r => r.2.map fun o => o.seen.map fun s => (s.label, s.budget)).toOption
    = some [[], [("annotation_1", some (3 / 2, 1 / 200))], [],
        [("annotation_2", some (3 / 2, 1 / 200)), ("annotation_3", some (3 / 2, 1 / 200))]] := by
  decide +kernel

example : (exampleSession.map fun r => (step r.1.acct .compute).2).toOption = some .unit := by
  decide +kernel

end PDP.Backend.Annotations
