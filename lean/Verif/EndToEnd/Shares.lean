import Verif.EndToEnd.CallsCover
import Verif.Budget.Aggregations

/-!
# Every call of a pipeline gets its share of the budget (C63)
-/

set_option linter.unusedSectionVars false

namespace PDP.EndToEnd

open PDP PDP.Engine
open PDP.Engine.AddNoise (specOf)
open PDP.Budget (State Op MechType Out Forest Agg)

variable {R P K : Type} [DecidableEq P] [DecidableEq K]

/-! ### Specification -/

/-- Weight within its call of the budget `i`: 1 for partition selection, the weight of the call for a metric. -/
def innerWeight (x : Call R K × Built) (i : ℕ) : ℚ := if x.2.selection = some i then 1 else x.1.weight

/-- Part of the call's weight that goes to the budget `i`. -/
def budgetPart (x : Call R K × Built) (i : ℕ) : ℚ :=
  x.1.weight * (innerWeight x i / (x.2.specs.map (innerWeight x)).sum)

/-- The budget `i` is used with a delta: partition selection, thresholding, Gaussian noise. -/
def needsDelta (x : Call R K × Built) (i : ℕ) : Bool :=
  x.2.selection == some i || x.1.kind == .gaussian || x.2.parts.any fun part => part == .thresholding i

/-! ### Proof -/

/-- The mechanism requested for the budget `i`. -/
def mechAt (x : Call R K × Built) (i : ℕ) : Engine.Mechanism :=
  if x.2.selection = some i then .generic
  else match x.2.parts.find? fun part => decide (i ∈ part.specs) with
    | some part => part.mechanism x.1.kind
    | none => .generic

def ofReqs : List Request → Forest
  | [] => .nil
  | r :: rs => .req (toMechType r.mechanism) 1 r.weight 1 (ofReqs rs)

theorem ofReqs_ops (l : List Request) :
    (ofReqs l).ops = l.map fun r => .request (toMechType r.mechanism) 1 r.weight 1 none := by
  induction l with
  | nil => rfl
  | cons r l ih => simp [ofReqs, Forest.ops, ih]

theorem ofReqs_size (l : List Request) : (ofReqs l).size = l.length := by
  induction l with
  | nil => rfl
  | cons r l ih => simp [ofReqs, Forest.size, ih]

theorem ofReqs_share (l : List Request) : (ofReqs l).share = (l.map Request.weight).sum := by
  induction l with
  | nil => rfl
  | cons r l ih => simp [ofReqs, Forest.share, ih]

theorem ofReqs_positive {l : List Request} (h : ∀ r ∈ l, 0 < r.weight) : (ofReqs l).Positive := by
  induction l with
  | nil => trivial
  | cons r l ih => exact ⟨h r (by simp), ih fun r hr => h r (by simp [hr])⟩

theorem ofReqs_noGaussian {l : List Request} (h : ∀ r ∈ l, r.mechanism ≠ .gaussian) : (ofReqs l).NoGaussian := by
  induction l with
  | nil => trivial
  | cons r l ih =>
    refine ⟨?_, ih fun r hr => h r (by simp [hr])⟩
    have := h r (by simp)
    cases hm : r.mechanism <;> simp_all [toMechType]

theorem ofReqs_mechsAt (l : List Request) (u : ℚ) :
    (ofReqs l).mechsAt u = l.map fun r => ⟨toMechType r.mechanism, 1, u * r.weight, 1, none, none⟩ := by
  induction l with
  | nil => rfl
  | cons r l ih => simp [ofReqs, Forest.mechsAt, ih]

theorem agg_ops (w : ℚ) (l : List Request) : (Agg.mk w (ofReqs l)).ops = callOps w l := by
  simp [Agg.ops, callOps, ofReqs_ops]

/-- The requests of a call in terms of the built call. -/
theorem build_new {fmt : ℚ → String} {rs rs' : List Request} {c : Call R K} (hs : c.Supported) {b : Built}
    (hb : build fmt rs c = (.ok b, rs')) :
    rs' = rs ++ b.specs.map fun i => ⟨mechAt (c, b) i, innerWeight (c, b) i⟩ := by
  obtain ⟨new, rfl, h2, h3, -⟩ := build_requests hs.any hb
  congr 1
  -- the weights
  have hw : (∀ part ∈ b.parts, ∀ i ∈ part.specs, (rs ++ new)[i]? = some ⟨part.mechanism c.kind, c.weight⟩) ∧
      (∀ i, b.selection = some i → (rs ++ new)[i]? = some ⟨.generic, 1⟩) ∧
      ∀ i, b.selection = some i → ∀ part ∈ b.parts, i ∉ part.specs := by
    cases c with
    | select p key =>
      simp only [build, Prod.mk.injEq, Except.ok.injEq] at hb
      obtain ⟨rfl, hb2⟩ := hb
      refine ⟨by simp, ?_, by simp⟩
      intro i hi
      simp only [requestBudget, Option.some.injEq] at hi hb2
      rw [← hb2, ← hi]; simp
    | aggregate p pub key value =>
      simp only [build] at hb
      rcases hx : createCompound fmt p rs with ⟨r, rs1⟩
      rw [hx] at hb
      cases r with
      | error e => simp at hb
      | ok parts =>
        dsimp only at hb
        have h5 := C21_each_combiner_gets_its_mechanism fmt p rs parts (by rw [hx])
        rw [hx] at h5
        dsimp only at h5
        by_cases h : selectsPrivately p pub = true
        · rw [if_pos h] at hb
          simp only [Prod.mk.injEq, Except.ok.injEq] at hb
          obtain ⟨rfl, hb2⟩ := hb
          rw [← hb2]
          refine ⟨fun part hp i hi => getElem?_prefix (h5 part hp i hi) _, ?_, ?_⟩
          · intro i hi
            simp only [requestBudget, Option.some.injEq] at hi ⊢
            rw [← hi]; simp
          · intro i hi part hp hip
            simp only [requestBudget, Option.some.injEq] at hi
            have := (List.getElem?_eq_some_iff.mp (h5 part hp i hip)).1
            omega
        · rw [if_neg h] at hb
          simp only [Prod.mk.injEq, Except.ok.injEq] at hb
          obtain ⟨rfl, hb2⟩ := hb
          rw [← hb2]
          exact ⟨h5, by simp, by simp⟩
  obtain ⟨w1, w2, w3⟩ := hw
  have key : ∀ i ∈ b.specs, (rs ++ new)[i]? = some ⟨mechAt (c, b) i, innerWeight (c, b) i⟩ := by
    intro i hi
    unfold mechAt innerWeight
    by_cases hsel : b.selection = some i
    · simp only [hsel, if_true]; exact w2 i hsel
    · simp only [hsel, if_false]
      unfold Built.specs at hi
      rw [List.mem_append] at hi
      rcases hi with hi | hi
      · obtain ⟨part, hpart, hip⟩ := List.mem_flatMap.mp hi
        cases hf : b.parts.find? fun part => decide (i ∈ part.specs) with
        | none =>
          have := List.find?_eq_none.mp hf part hpart
          simp [hip] at this
        | some part' =>
          have m1 := List.mem_of_find?_eq_some hf
          have m2 := List.find?_some hf
          simp only [decide_eq_true_eq] at m2
          exact w1 part' m1 i m2
      · rw [Option.mem_toList] at hi; exact absurd hi hsel
  apply List.ext_getElem
  · rw [List.length_map, h2, List.length_range']
  · intro t h1 h2'
    rw [List.getElem_map]
    have hlt : t < b.specs.length := by simpa using h2'
    have e1 : b.specs[t] = rs.length + t := by
      simp only [h2, List.getElem_range']; omega
    have k := key b.specs[t] (List.getElem_mem hlt)
    rw [e1, List.getElem?_append_right (by omega), Nat.add_sub_cancel_left, List.getElem?_eq_getElem h1] at k
    rw [e1]
    exact Option.some.inj k

theorem specs_ne_nil {fmt : ℚ → String} {rs rs' : List Request} {c : Call R K} (hs : c.Supported) {b : Built}
    (hb : build fmt rs c = (.ok b, rs')) (hm : ∀ p pub key value, c = .aggregate p pub key value → p.metrics ≠ []) :
    b.specs ≠ [] := by
  cases c with
  | select p key =>
    simp only [build, Prod.mk.injEq, Except.ok.injEq] at hb
    obtain ⟨rfl, -⟩ := hb
    simp [Built.specs]
  | aggregate p pub key value =>
    obtain ⟨⟨rs1, h1⟩, -⟩ := build_aggregate hb
    obtain ⟨new, -, h3, h4, -⟩ := C21_each_budget_is_used_once fmt p rs b.parts (by rw [h1])
    obtain ⟨m, hmm⟩ := List.exists_mem_of_ne_nil _ (hm p pub key value rfl)
    have hpos : 0 < requestCount p := by
      have hmem : m = .count ∨ m = .privacyIdCount ∨ m = .sum ∨ m = .mean ∨ m = .variance :=
        SupportedAggregate.metrics hs m hmm
      unfold requestCount
      rcases hmem with rfl | rfl | rfl | rfl | rfl <;> simp only [hmm, if_true] <;> (try split) <;> (try split) <;> omega
    intro h
    unfold Built.specs at h
    rw [List.append_eq_nil_iff, h4] at h
    have := congrArg List.length h.1
    rw [List.length_range', List.length_nil] at this
    omega

theorem mechAt_laplace {c : Call R K} {b : Built} {rs : List Request} (h : b.Requested c.kind rs) {i : ℕ} (hi : i ∈ b.specs) :
    (mechAt (c, b) i = .laplace) ↔ needsDelta (c, b) i = false := by
  unfold mechAt needsDelta
  by_cases hsel : b.selection = some i
  · simp [hsel]
  · simp only [hsel, if_false, Bool.or_eq_false_iff, beq_eq_false_iff_ne, ne_eq, not_false_eq_true, true_and]
    unfold Built.specs at hi
    rw [List.mem_append] at hi
    rcases hi with hi | hi
    · obtain ⟨part, hpart, hip⟩ := List.mem_flatMap.mp hi
      cases hf : b.parts.find? fun part => decide (i ∈ part.specs) with
      | none =>
        have := List.find?_eq_none.mp hf part hpart
        simp [hip] at this
      | some part' =>
        have m1 := List.mem_of_find?_eq_some hf
        have m2 := List.find?_some hf
        simp only [decide_eq_true_eq] at m2
        obtain ⟨w, hw⟩ := h.parts part' m1 i m2
        dsimp only
        constructor
        · intro hl
          constructor
          · intro hg
            rw [hg] at hl
            cases part' <;> simp [Part.mechanism, NoiseKind.mechanism, NoiseKind.thresholding] at hl
          · rw [List.any_eq_false]
            intro q hq hqe
            have hqe : q = .thresholding i := by simpa using hqe
            obtain ⟨w', hw'⟩ := h.parts q hq i (by rw [hqe]; simp [Part.specs])
            rw [hw, hqe] at hw'
            simp only [Option.some.injEq, Request.mk.injEq] at hw'
            rw [hl] at hw'
            have := hw'.1
            cases hk : c.kind <;> rw [hk] at this <;> simp [Part.mechanism, NoiseKind.thresholding] at this
        · rintro ⟨hg, hth⟩
          have hk : c.kind = .laplace := by
            cases hk : c.kind with
            | laplace => rfl
            | gaussian => exact absurd hk hg
          rw [hk]
          rw [List.any_eq_false] at hth
          have := hth part' m1
          cases part' with
          | thresholding j =>
            simp only [Part.specs, List.mem_singleton] at m2
            subst m2
            simp at this
          | _ => rfl
    · rw [Option.mem_toList] at hi; exact absurd hi hsel

/-- The mechanisms registered by a pipeline. -/
def registered (l : List (Call R K × Built)) : List Budget.Mech :=
  l.flatMap fun x => x.2.specs.map fun i => ⟨toMechType (mechAt x i), 1, budgetPart x i, 1, none, none⟩

theorem plan_registered {fmt : ℚ → String} {cs : List (Call R K)} (hs : ∀ c ∈ cs, c.Supported)
    (hm : ∀ p pub key value, Call.aggregate p pub key value ∈ cs → p.metrics ≠ []) :
    ∀ {rs : List Request} {bs ops}, planCalls fmt rs cs = .ok (bs, ops) → bs.length = cs.length ∧
      (∀ b ∈ bs, b.specs ≠ []) ∧
      (∀ x ∈ cs.zip bs, ∀ i ∈ x.2.specs, 0 < innerWeight x i ∧ (mechAt x i = .laplace ↔ needsDelta x i = false)) ∧
      ∃ n, bs.flatMap Built.specs = List.range' rs.length n ∧
      ∀ s : State, s.stack = [] → s.finalized = false → (s.totalDelta ≠ 0 ∨ ∀ c ∈ cs, ¬c.NeedsDelta) →
        (∀ n, s.expectedNum = some n → 0 < n) → (∀ l, s.expectedWeights = some l → l ≠ [] → l.sum ≠ 0) →
        (Budget.run s ops).1 = { s with mechs := s.mechs ++ registered (cs.zip bs),
                                        actualWeights := s.actualWeights ++ cs.map Call.weight } := by
  induction cs with
  | nil =>
    intro rs bs ops h
    simp only [planCalls, Except.ok.injEq, Prod.mk.injEq] at h
    obtain ⟨rfl, rfl⟩ := h
    exact ⟨rfl, by simp, by simp, 0, rfl, fun s _ _ _ _ _ => by simp [Budget.run, registered]⟩
  | cons c cs ih =>
    intro rs bs ops h
    have hc := hs c (by simp)
    rcases hx : build fmt rs c with ⟨r, rs'⟩
    rw [planCalls, hx] at h
    rcases r with e | b
    · simp at h
    · dsimp only at h
      rcases hp : planCalls fmt rs' cs with e | ⟨bs', ops'⟩
      · rw [hp] at h; simp at h
      · rw [hp] at h
        simp only [Except.ok.injEq, Prod.mk.injEq] at h
        obtain ⟨rfl, rfl⟩ := h
        have hb := build_new hc hx
        obtain ⟨new, hnew, hsp, hreq, hnw⟩ := build_requests hc.any hx
        have hne := specs_ne_nil hc hx (fun p pub key value h => hm p pub key value (by simp [h]))
        have heq : new = b.specs.map fun i => ⟨mechAt (c, b) i, innerWeight (c, b) i⟩ :=
          List.append_cancel_left (hnew.symm.trans hb)
        obtain ⟨i1, i2, i3, n, i4, i5⟩ := ih (fun c hc => hs c (by simp [hc]))
          (fun p pub key value h => hm p pub key value (by simp [h])) hp
        have hin : ∀ i ∈ b.specs, 0 < innerWeight (c, b) i ∧
            (mechAt (c, b) i = .laplace ↔ needsDelta (c, b) i = false) := by
          intro i hi
          have := hnw ⟨mechAt (c, b) i, innerWeight (c, b) i⟩ (by rw [heq]; exact List.mem_map.mpr ⟨i, hi, rfl⟩)
          exact ⟨this.1, mechAt_laplace hreq hi⟩
        refine ⟨by simp [i1], ?_, ?_, new.length + n, ?_, ?_⟩
        · intro b' hb'
          rcases List.mem_cons.mp hb' with rfl | hb'
          · exact hne
          · exact i2 b' hb'
        · intro x hx
          rw [List.zip_cons_cons, List.mem_cons] at hx
          rcases hx with rfl | hx
          · exact hin
          · exact i3 x hx
        · rw [List.flatMap_cons, hsp, i4, hnew, List.length_append, ← List.range'_append_1]
        · intro s hst hf hd hn hw
          rw [hnew, List.drop_left, Budget.run_append]
          dsimp only
          rw [← agg_ops]
          have hsz : (ofReqs new).size ≠ 0 := by
            rw [ofReqs_size, heq, List.length_map]
            exact fun h => hne (List.length_eq_zero_iff.mp h)
          obtain ⟨r1, -, -⟩ := Budget.run_agg ⟨c.weight, ofReqs new⟩ (ofReqs_positive fun r hr => (hnw r hr).1)
            hsz s hst hf (by
              rcases hd with h | h
              · exact .inl h
              · refine .inr (ofReqs_noGaussian fun r hr hg => ?_)
                exact h c (by simp) ((hnw r hr).2 (by rw [hg]; simp))) hn hw
          have r2 := i5 (Budget.run s (Agg.ops ⟨c.weight, ofReqs new⟩)).1 (by rw [r1]; exact hst) (by rw [r1]; exact hf) (by
            rw [r1]
            rcases hd with h | h
            · exact .inl h
            · exact .inr fun c hc => h c (by simp [hc])) (by rw [r1]; exact hn) (by rw [r1]; exact hw)
          rw [r2, r1]
          simp only [List.zip_cons_cons, registered, List.flatMap_cons, List.map_cons, List.append_assoc]
          congr 2
          · congr 1
            rw [ofReqs_mechsAt, heq, List.map_map]
            apply List.map_congr_left
            intro i hi
            simp only [Function.comp_apply, budgetPart, ofReqs_share, List.map_map]
            congr 1
            rw [show (Request.weight ∘ fun i => (⟨mechAt (c, b) i, innerWeight (c, b) i⟩ : Request))
              = innerWeight (c, b) from rfl]
            ring

theorem budgetPart_sum {x : Call R K × Built} (h0 : x.2.specs ≠ []) (h : ∀ i ∈ x.2.specs, 0 < innerWeight x i) :
    (x.2.specs.map (budgetPart x)).sum = x.1.weight := by
  have hpos : 0 < (x.2.specs.map (innerWeight x)).sum := by
    obtain ⟨i, hi⟩ := List.exists_mem_of_ne_nil _ h0
    exact Budget.sum_pos_of_mem _ _ (fun a ha => (h a ha).le) hi (h i hi)
  have : x.2.specs.map (budgetPart x) = x.2.specs.map fun i =>
      x.1.weight / (x.2.specs.map (innerWeight x)).sum * innerWeight x i := by
    apply List.map_congr_left
    intro i _
    unfold budgetPart; ring
  rw [this, List.sum_map_mul_left]
  field_simp

/-- **C63** (shares of the budget).  In a pipeline of supported calls, each with at least one metric, the budget `i` of a call
gets the epsilon `e * part / total`, where `total` is the sum of the weights of all calls and `part` the part of the call's
weight that goes to `i`: the weight is divided among the metrics and (with weight 1) partition selection.  The delta is
divided in the same way among the budgets that need a delta. -/
theorem C63_budget_shares (fmt : ℚ → String) (cs : List (Call R K)) (hs : ∀ c ∈ cs, c.Supported)
    (hm : ∀ p pub key value, Call.aggregate p pub key value ∈ cs → p.metrics ≠ []) {e d : ℚ} {num ws s0}
    (h0 : Budget.init e d num ws = .ok s0) (hd : (∃ c ∈ cs, c.NeedsDelta) → 0 < d) (ha : AnnouncedCalls num ws cs)
    {bs ops} (hp : planCalls fmt [] cs = .ok (bs, ops)) :
    let s := (Budget.step (Budget.run s0 ops).1 .compute).1
    let all := (cs.zip bs).flatMap fun x => x.2.specs.map fun i => (x, i)
    ∀ x ∈ cs.zip bs, ∀ i ∈ x.2.specs,
      Budget.seesEps s i (e * budgetPart x i / (cs.map Call.weight).sum) ∧
      Budget.seesDelta s i (if needsDelta x i then
        d * budgetPart x i / (((all.filter fun y => needsDelta y.1 y.2).map fun y => budgetPart y.1 y.2).sum) else 0) := by
  intro s all x hx i hi
  obtain ⟨bs', ops', hp', -, hc⟩ := C62_supported_pipeline_runs fmt cs hs h0 hd ha
  rw [hp] at hp'
  simp only [Except.ok.injEq, Prod.mk.injEq] at hp'
  obtain ⟨rfl, rfl⟩ := hp'
  obtain ⟨hl, hne, hpos, n, hrange, hrun⟩ := plan_registered hs hm hp
  obtain ⟨he, hd0, -, hs0, -, hnp⟩ := Budget.init_facts h0
  have hcpos : ∀ c ∈ cs, 0 < c.weight := fun c hc => (hs c hc).weight
  have hw : ∀ l, s0.expectedWeights = some l → l ≠ [] → l.sum ≠ 0 := by
    rw [hs0]
    intro l hl hl0
    have hl : ws = some l := hl
    rw [ha.2 l hl] at hl0 ⊢
    have hcs : cs ≠ [] := by rintro rfl; exact hl0 rfl
    obtain ⟨c, hc⟩ := List.exists_mem_of_ne_nil _ hcs
    exact (Budget.sum_pos_of_mem cs Call.weight (fun c hc => (hcpos c hc).le) hc (hcpos c hc)).ne'
  have hr := hrun s0 (by rw [hs0]) (by rw [hs0]) (by
    rw [hs0]
    by_cases h : ∃ c ∈ cs, c.NeedsDelta
    · exact .inl (hd h).ne'
    · exact .inr fun c hc hn => h ⟨c, hc, hn⟩) (by rw [hs0]; exact hnp) hw
  rw [hs0] at hr
  simp only [List.nil_append] at hr
  rw [hs0] at hc
  -- the registered mechanisms
  have hreg : registered (cs.zip bs) = all.map fun y => ⟨toMechType (mechAt y.1 y.2), 1, budgetPart y.1 y.2, 1, none, none⟩ := by
    simp only [registered, all, List.map_flatMap, List.map_map]
    rfl
  have hsnd : all.map Prod.snd = List.range' 0 n := by
    rw [List.length_nil] at hrange
    rw [← hrange]
    simp only [all, List.map_flatMap, List.map_map]
    have : bs = (cs.zip bs).map Prod.snd := by rw [List.map_snd_zip (by omega)]
    conv_rhs => rw [this]
    rw [List.flatMap_map]
    congr 1
    funext x
    simp [Function.comp_def]
  have hmem : (x, i) ∈ all := List.mem_flatMap.mpr ⟨x, hx, List.mem_map.mpr ⟨i, hi, rfl⟩⟩
  obtain ⟨t, ht, hti⟩ := List.getElem_of_mem hmem
  have hget : all[i]? = some (x, i) := by
    have h1 : (all.map Prod.snd)[t]? = some i := by rw [List.getElem?_map, List.getElem?_eq_getElem ht, hti]; rfl
    rw [hsnd] at h1
    obtain ⟨h2, h3⟩ := List.getElem?_eq_some_iff.mp h1
    have h3 : t = i := by simpa using h3
    subst h3
    rw [List.getElem?_eq_getElem ht, hti]
  have hmne : registered (cs.zip bs) ≠ [] := by
    rw [hreg]; simp only [ne_eq, List.map_eq_nil_iff]; exact List.ne_nil_of_mem hmem
  have hW : Budget.totalWeightEps (registered (cs.zip bs)) = (cs.map Call.weight).sum := by
    rw [Budget.totalWeightEps_eq]
    have : cs = (cs.zip bs).map Prod.fst := by rw [List.map_fst_zip (by omega)]
    conv_rhs => rw [this]
    have hall : ∀ x ∈ cs.zip bs, (x.2.specs.map (budgetPart x)).sum = x.1.weight := fun x hx =>
      budgetPart_sum (hne x.2 (List.of_mem_zip hx).2) fun i hi => (hpos x hx i hi).1
    unfold registered
    generalize cs.zip bs = l at hall
    induction l with
    | nil => rfl
    | cons y l ih =>
      rw [List.flatMap_cons, List.map_append, List.sum_append, ih fun x hx => hall x (by simp [hx])]
      simp only [List.map_cons, List.sum_cons, List.map_map]
      rw [← hall y (by simp)]
      congr 2
      apply List.map_congr_left
      intro i _
      simp
  have hWpos : 0 < (cs.map Call.weight).sum :=
    Budget.sum_pos_of_mem cs Call.weight (fun c hc => (hcpos c hc).le) (List.of_mem_zip hx).1 (hcpos _ (List.of_mem_zip hx).1)
  have hpos' : ∀ y ∈ all, 0 < budgetPart y.1 y.2 ∧ ((toMechType (mechAt y.1 y.2) != .laplace) = needsDelta y.1 y.2) := by
    intro y hy
    obtain ⟨x', hx', hy'⟩ := List.mem_flatMap.mp hy
    obtain ⟨i', hi', rfl⟩ := List.mem_map.mp hy'
    have hxz := List.of_mem_zip hx'
    constructor
    · unfold budgetPart
      have : 0 < (x'.2.specs.map (innerWeight x')).sum :=
        Budget.sum_pos_of_mem _ _ (fun a ha => (hpos x' hx' a ha).1.le) hi' (hpos x' hx' i' hi').1
      exact mul_pos (hcpos _ hxz.1) (div_pos (hpos x' hx' i' hi').1 this)
    · have := (hpos x' hx' i' hi').2
      rw [← toMechType_laplace] at this
      rw [Bool.eq_iff_iff, bne_iff_ne, ne_eq, this]
      simp
  have hD : Budget.totalWeightDelta (registered (cs.zip bs))
      = ((all.filter fun y => needsDelta y.1 y.2).map fun y => budgetPart y.1 y.2).sum := by
    rw [Budget.totalWeightDelta_eq, hreg, List.map_map]
    clear_value all
    clear hreg hsnd hget hmem hti ht hmne
    induction all with
    | nil => rfl
    | cons y l ih =>
      rw [List.map_cons, List.sum_cons, ih fun y hy => hpos' y (by simp [hy])]
      have h2 := (hpos' y (by simp)).2
      simp only [Function.comp_apply, Budget.Mech.useDelta, h2, List.filter_cons]
      split <;> simp
  have hstep : Budget.step (Budget.run ⟨e, d, num, ws, [], [], [], false⟩ ops).1 .compute
      = (⟨e, d, num, ws, cs.map Call.weight, [], (registered (cs.zip bs)).map (Budget.assign e d
          (Budget.totalWeightEps (registered (cs.zip bs))) (Budget.totalWeightDelta (registered (cs.zip bs)))), true⟩,
        .unit) := by
    rw [hr] at hc ⊢
    simp only [Budget.step, Budget.computeBudgets] at hc ⊢
    by_cases hck : Budget.checkRestrictions ⟨e, d, num, ws, cs.map Call.weight, [], registered (cs.zip bs), false⟩ = false
    · simp [hck] at hc
    · simp [hck, hmne]
  have hs : s = ⟨e, d, num, ws, cs.map Call.weight, [], (registered (cs.zip bs)).map (Budget.assign e d
          (Budget.totalWeightEps (registered (cs.zip bs))) (Budget.totalWeightDelta (registered (cs.zip bs)))), true⟩ := by
    simp only [s]
    rw [hs0, hstep]
  have hmi : s.mechs[i]? = some (Budget.assign e d (cs.map Call.weight).sum
      ((all.filter fun y => needsDelta y.1 y.2).map fun y => budgetPart y.1 y.2).sum
      ⟨toMechType (mechAt x i), 1, budgetPart x i, 1, none, none⟩) := by
    rw [hs, hW, hD]
    simp only [List.getElem?_map, hreg, hget, Option.map_some]
  rw [Budget.seesEps_iff, Budget.seesDelta_iff]
  refine ⟨⟨_, hmi, ?_⟩, ⟨_, hmi, ?_⟩⟩
  · simp [Budget.assign, hWpos.ne']
  · have h2 := (hpos' _ hmem).2
    simp only [Budget.assign, Budget.Mech.useDelta, h2, Option.some.injEq]
    by_cases hnd : needsDelta x i = true
    · have : 0 < ((all.filter fun y => needsDelta y.1 y.2).map fun y => budgetPart y.1 y.2).sum :=
        Budget.sum_pos_of_mem _ _ (fun a ha => (hpos' a (List.mem_filter.mp ha).1).1.le)
          (List.mem_filter.mpr ⟨hmem, hnd⟩) (hpos' _ hmem).1
      simp [hnd, this.ne']
    · simp [hnd]

end PDP.EndToEnd
