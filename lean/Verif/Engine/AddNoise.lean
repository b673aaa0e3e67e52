import Verif.Engine.Mechanism
import Mathlib.Tactic.NormNum

/-!
# `DPEngine.add_dp_noise` (`pipeline_dp/dp_engine.py:553-609`) on the naive accountant
-/

set_option linter.unusedVariables false

namespace PDP.Engine.AddNoise

open PDP.Engine (Sens mkSens NoiseKind)
open PDP.Engine.Mechanism (Spec createAdditive Additive)
open PDP.Budget (State MechType Mech requestBudget computeBudgetForAggregation computeBudgets)

/-! ### Model -/

/-- `AddDPNoiseParams` (`aggregate_params.py:646-665`); the sensitivities may be `None`. -/
structure Params where
  kind : NoiseKind
  l0 : Option ℚ
  linf : Option ℚ
  weight : ℚ := 1

/-- `AddDPNoiseParams.__post_init__` (`aggregate_params.py:667-675`); `true` = no exception. -/
def Params.valid (p : Params) : Bool :=
  (p.l0.all fun x => decide (0 < x)) && (p.linf.all fun x => decide (0 < x)) && decide (0 < p.weight)

/-- Exceptions: of the accountant, of `Sensitivities`, of the mechanism. -/
inductive Err where
  | budget (e : PDP.Budget.Err)
  | sensitivities
  | mechanism (e : PDP.Engine.Mechanism.Err)

/-- `convert_to_mechanism_type` (`aggregate_params.py:79-83`). -/
def mechType : NoiseKind → MechType
  | .laplace => .laplace
  | .gaussian => .gaussian

/-- What the lazily evaluated collection refers to (the specification, by its index in the accountant, and the sensitivities),
and the budget of the annotation. -/
structure Handle where
  spec : ℕ
  sens : Sens
  budget : Option (ℚ × ℚ)

/-- `add_dp_noise` (`dp_engine.py:553-609`) up to the lazily evaluated `map_values`. `request_budget` is called with its
default arguments (sensitivity 1, weight 1, count 1). -/
noncomputable def addDpNoise (s : State) (p : Params) : State × Except Err Handle :=
  match requestBudget s (mechType p.kind) 1 1 1 none with
  | (s, .error e) => (s, .error (.budget e))
  | (s, .ok i) =>
    match mkSens (p.l0.map fun x : ℚ => (x : ℝ)) (p.linf.map fun x : ℚ => (x : ℝ)) none none with
    | .error _ => (s, .error .sensitivities)
    | .ok sens =>
      match computeBudgetForAggregation s p.weight with
      | (s, .error e) => (s, .error (.budget e))
      | (s, .ok b) => (s, .ok ⟨i, sens, b⟩)

/-- The specification as the mechanism sees it: the current attributes of the accountant's object (naive accounting sets no
standard deviation). -/
def specOf (s : State) (i : ℕ) : Spec :=
  match s.mechs[i]? with
  | none => ⟨.generic, none, none, none⟩
  | some m => ⟨m.mtype, none, m.eps.map fun x : ℚ => (x : ℝ), m.delta.map fun x : ℚ => (x : ℝ)⟩

/-- Evaluation of the collection (`dp_engine.py:596-605`): every value gets the noise of a newly created mechanism.
`noise i m` is the sample drawn for the `i`-th element from the mechanism `m`. -/
noncomputable def evaluate {K : Type} (sigma : ℝ → ℝ → ℝ → ℝ) (s : State) (h : Handle) (noise : ℕ → Additive → ℝ) :
    ℕ → List (K × ℚ) → Except Err (List (K × ℝ))
  | _, [] => .ok []
  | i, (k, v) :: col =>
    match createAdditive sigma (specOf s h.spec) h.sens with
    | .error e => .error (.mechanism e)
    | .ok m =>
      match evaluate sigma s h noise (i + 1) col with
      | .error e => .error e
      | .ok out => .ok ((k, (v : ℝ) + noise i m) :: out)

/-- Several calls, one after the other. -/
noncomputable def calls (s : State) : List Params → State × List (Except Err Handle)
  | [] => (s, [])
  | p :: ps =>
    let r := addDpNoise s p
    let r' := calls r.1 ps
    (r'.1, r.2 :: r'.2)

/-! ### Properties -/

theorem mkSens_ok {a b : ℚ} (ha : 0 < a) (hb : 0 < b) :
    mkSens (some (a : ℝ)) (some (b : ℝ)) none none
      = .ok ⟨some (a : ℝ), some (b : ℝ), some ((a : ℝ) * b), some (Real.sqrt a * b)⟩ := by
  have ha' : (0 : ℝ) < a := by exact_mod_cast ha
  have hb' : (0 : ℝ) < b := by exact_mod_cast hb
  unfold mkSens
  rw [if_pos (by simp [PDP.Engine.positiveOrNone, ha', hb'])]
  rfl

/-- **C54.** `AddDPNoiseParams` are accepted exactly if the given sensitivities and the budget weight are positive. -/
theorem C54_accepted_parameters (p : Params) :
    p.valid = true ↔ (∀ a, p.l0 = some a → 0 < a) ∧ (∀ b, p.linf = some b → 0 < b) ∧ 0 < p.weight := by
  unfold Params.valid
  rcases p with ⟨k, l0, linf, w⟩
  cases l0 <;> cases linf <;> simp [and_assoc]

example : Params.valid ⟨.laplace, some 1, some 2, 1⟩ = true ∧ Params.valid ⟨.laplace, some 1, some 0, 1⟩ = false := by
  decide +kernel

/-- **C54.** A successful call registers exactly one mechanism, of the kind of the noise and with weight 1, changes no other
mechanism, and remembers the sensitivities of the user: L0, Linf, `L1 = L0 · Linf`, `L2 = √L0 · Linf`. -/
theorem C54_one_mechanism (s s' : State) (p : Params) (h : Handle) (hp : addDpNoise s p = (s', .ok h)) :
    s'.mechs = s.mechs ++ [⟨mechType p.kind, 1, 1, 1, none, none⟩] ∧ h.spec = s.mechs.length ∧
      (∀ a b, p.l0 = some a → p.linf = some b → 0 < a → 0 < b →
        h.sens = ⟨some (a : ℝ), some (b : ℝ), some ((a : ℝ) * b), some (Real.sqrt a * b)⟩) := by
  unfold addDpNoise at hp
  rcases hr : requestBudget s (mechType p.kind) 1 1 1 none with ⟨s1, r⟩
  rw [hr] at hp
  unfold requestBudget at hr
  cases r with
  | error e => simp at hp
  | ok i =>
    have hs1 : s1 = PDP.Budget.register s ⟨mechType p.kind, 1, 1, 1, none, none⟩ ∧ i = s.mechs.length := by
      split at hr
      · simp at hr
      · split at hr
        · simp at hr
        · split at hr
          · simp at hr
          · simp only [Prod.mk.injEq, Except.ok.injEq] at hr; exact ⟨hr.1.symm, hr.2.symm⟩
    obtain ⟨rfl, rfl⟩ := hs1
    dsimp only at hp
    rcases hm : mkSens (p.l0.map fun x : ℚ => (x : ℝ)) (p.linf.map fun x : ℚ => (x : ℝ)) none none with e | sens
    · rw [hm] at hp; simp at hp
    · rw [hm] at hp
      dsimp only at hp
      have hstate : ∀ s w, (computeBudgetForAggregation s w).1.mechs = s.mechs := by
        intro s w; unfold computeBudgetForAggregation; dsimp only; split
        · rfl
        · split
          · split <;> rfl
          · rfl
      rcases hb : computeBudgetForAggregation (PDP.Budget.register s ⟨mechType p.kind, 1, 1, 1, none, none⟩) p.weight with ⟨s2, b⟩
      have h2 := hstate (PDP.Budget.register s ⟨mechType p.kind, 1, 1, 1, none, none⟩) p.weight
      rw [hb] at hp h2
      cases b with
      | error e => simp at hp
      | ok b =>
        simp only [Prod.mk.injEq, Except.ok.injEq] at hp
        obtain ⟨rfl, rfl⟩ := hp
        refine ⟨h2, rfl, ?_⟩
        intro a b ha hb' ha0 hb0
        rw [ha, hb', Option.map_some, Option.map_some, mkSens_ok ha0 hb0] at hm
        cases hm; rfl

/-- **C54.** Evaluating the result of a successful call after the budget was computed gives every partition key once, in
order, with its own value plus one sample of the mechanism: Laplace of scale `L0 · Linf / eps`, or Gaussian noise for
(eps, delta, `√L0 · Linf`), for the epsilon and delta which the accountant gave to this call. -/
theorem C54_noise_once {K : Type} (sigma : ℝ → ℝ → ℝ → ℝ) (s s' later : State) (p : Params) (h : Handle) (a b : ℚ)
    (h0 : p.l0 = some a) (hi : p.linf = some b) (ha : 0 < a) (hb : 0 < b) (hp : addDpNoise s p = (s', .ok h))
    (m : Mech) (hm : later.mechs[s.mechs.length]? = some m) (ht : m.mtype = mechType p.kind) (e d : ℚ)
    (he : m.eps = some e) (hd : m.delta = some d) (noise : ℕ → Additive → ℝ) (col : List (K × ℚ)) :
    ∃ mech : Additive, mech.kind = p.kind ∧
      (p.kind = .laplace → mech.parameter = (a : ℝ) * b / e) ∧
      (p.kind = .gaussian → mech.parameter = sigma e d (Real.sqrt a * b)) ∧
      evaluate sigma later h noise 0 col = .ok (col.mapIdx fun i x => (x.1, (x.2 : ℝ) + noise i mech)) := by
  obtain ⟨-, hspec, hsens⟩ := C54_one_mechanism s s' p h hp
  have hsens := hsens a b h0 hi ha hb
  have hso : specOf later h.spec = ⟨mechType p.kind, none, some (e : ℝ), some (d : ℝ)⟩ := by
    simp [specOf, hspec, hm, ht, he, hd]
  have hcreate : ∃ mech, createAdditive sigma (specOf later h.spec) h.sens = .ok mech ∧ mech.kind = p.kind ∧
      (p.kind = .laplace → mech.parameter = (a : ℝ) * b / e) ∧
      (p.kind = .gaussian → mech.parameter = sigma e d (Real.sqrt a * b)) := by
    rw [hso, hsens]
    cases hk : p.kind with
    | laplace => exact ⟨.laplace ((a : ℝ) * b / e) ((a : ℝ) * b), rfl, rfl, fun _ => rfl, fun h => nomatch h⟩
    | gaussian => exact ⟨.gaussian (sigma e d (Real.sqrt a * b)) (Real.sqrt a * b), rfl, rfl, (fun h => nomatch h), fun _ => rfl⟩
  obtain ⟨mech, hc, h1, h2, h3⟩ := hcreate
  refine ⟨mech, h1, h2, h3, ?_⟩
  have gen : ∀ (col : List (K × ℚ)) (j : ℕ),
      evaluate sigma later h noise j col = .ok (col.mapIdx fun i x => (x.1, (x.2 : ℝ) + noise (j + i) mech)) := by
    intro col
    induction col with
    | nil => intro j; rfl
    | cons x col ih =>
      intro j
      simp only [evaluate, hc, ih (j + 1), List.mapIdx_cons, Nat.add_zero]
      congr 3
      funext i x
      rw [Nat.add_right_comm, Nat.add_assoc]
  simpa using gen col 0

/-- **C54.** Before the budget is computed, evaluating a non-empty collection fails. -/
theorem C54_needs_budget {K : Type} (sigma : ℝ → ℝ → ℝ → ℝ) (s s' : State) (p : Params) (h : Handle) (a b : ℚ)
    (h0 : p.l0 = some a) (hi : p.linf = some b) (ha : 0 < a) (hb : 0 < b) (hp : addDpNoise s p = (s', .ok h))
    (noise : ℕ → Additive → ℝ) (col : List (K × ℚ)) (hne : col ≠ []) :
    evaluate sigma s' h noise 0 col = .error (.mechanism .notComputed) := by
  obtain ⟨hm, hspec, hsens⟩ := C54_one_mechanism s s' p h hp
  have hsens := hsens a b h0 hi ha hb
  cases col with
  | nil => exact absurd rfl hne
  | cons x col =>
    have hso : specOf s' h.spec = ⟨mechType p.kind, none, none, none⟩ := by
      simp [specOf, hspec, hm]
    have : createAdditive sigma (specOf s' h.spec) h.sens = .error .notComputed := by
      rw [hso, hsens]
      cases p.kind <;> rfl
    simp only [evaluate, this]

theorem call_laplace (s : State) (p : Params) (a b : ℚ) (hk : p.kind = .laplace) (h0 : p.l0 = some a) (hi : p.linf = some b)
    (ha : 0 < a) (hb : 0 < b) (hf : s.finalized = false) (hn : s.expectedNum = none) (ws : List ℚ)
    (hw : s.expectedWeights = some ws) (hws : ws ≠ []) (hsum : ws.sum ≠ 0) (hst : s.stack = []) :
    ∃ h, addDpNoise s p = ({ s with
        mechs := s.mechs ++ [⟨.laplace, 1, 1, 1, none, none⟩], actualWeights := s.actualWeights ++ [p.weight] }, .ok h) ∧
      h.budget = some (s.totalEps * (p.weight / ws.sum), s.totalDelta * (p.weight / ws.sum)) ∧ h.spec = s.mechs.length := by
  obtain ⟨te, td, en, ew, aw, st, ms, fin⟩ := s
  simp only at hf hn hw hst
  subst hf hn hw hst
  rcases ws with _ | ⟨w, ws⟩
  · exact absurd rfl hws
  · refine ⟨⟨ms.length, ⟨some (a : ℝ), some (b : ℝ), some ((a : ℝ) * b), some (Real.sqrt a * b)⟩,
      some (te * (p.weight / (w :: ws).sum), td * (p.weight / (w :: ws).sum))⟩, ?_, rfl, rfl⟩
    unfold addDpNoise
    simp only [hk, mechType, requestBudget, h0, hi, Option.map_some, mkSens_ok ha hb, PDP.Budget.register,
      computeBudgetForAggregation, PDP.Budget.truthyNum, PDP.Budget.truthyList]
    have hsum' : ¬ w + ws.sum = 0 := by simpa using hsum
    simp [hsum']

/-- What the calls do to a fresh accountant with announced weights. -/
theorem calls_laplace (te td : ℚ) (ws : List ℚ) (hws : ws ≠ []) (hsum : ws.sum ≠ 0) :
    ∀ (ps : List Params) (aw : List ℚ) (ms : List Mech),
      (∀ p ∈ ps, p.kind = .laplace ∧ ∃ a b, p.l0 = some a ∧ p.linf = some b ∧ 0 < a ∧ 0 < b) →
      let r := calls ⟨te, td, none, some ws, aw, [], ms, false⟩ ps
      r.1 = ⟨te, td, none, some ws, aw ++ ps.map Params.weight, [],
        ms ++ List.replicate ps.length ⟨.laplace, 1, 1, 1, none, none⟩, false⟩ ∧
      r.2.length = ps.length ∧
      ∀ i p, ps[i]? = some p → ∃ h, r.2[i]? = some (.ok h) ∧ h.spec = ms.length + i ∧
        h.budget = some (te * (p.weight / ws.sum), td * (p.weight / ws.sum))
  | [], aw, ms, _ => by simp [calls]
  | p :: ps, aw, ms, hps => by
    intro r
    obtain ⟨hk, a, b, h0, hi, ha, hb⟩ := hps p (by simp)
    obtain ⟨h, hc, hbud, hspec⟩ := call_laplace ⟨te, td, none, some ws, aw, [], ms, false⟩ p a b hk h0 hi ha hb rfl rfl ws rfl
      hws hsum rfl
    have ih := calls_laplace te td ws hws hsum ps (aw ++ [p.weight]) (ms ++ [⟨.laplace, 1, 1, 1, none, none⟩])
      fun p' hp' => hps p' (by simp [hp'])
    obtain ⟨i1, i2, i3⟩ := ih
    have hr : r = ((calls ⟨te, td, none, some ws, aw ++ [p.weight], [], ms ++ [⟨.laplace, 1, 1, 1, none, none⟩], false⟩ ps).1,
        .ok h :: (calls ⟨te, td, none, some ws, aw ++ [p.weight], [], ms ++ [⟨.laplace, 1, 1, 1, none, none⟩], false⟩ ps).2) := by
      show calls _ (p :: ps) = _
      simp only [calls, hc]
    rw [hr]
    refine ⟨?_, ?_, ?_⟩
    · dsimp only
      rw [i1]
      simp [List.replicate_succ]
    · simp [i2]
    · intro i p' hp'
      cases i with
      | zero =>
        simp at hp'; subst hp'
        exact ⟨h, rfl, by simpa using hspec, hbud⟩
      | succ i =>
        obtain ⟨h', e1, e2, e3⟩ := i3 i p' (by simpa using hp')
        exact ⟨h', by simpa using e1, by rw [e2]; simp; omega, e3⟩

/-- **C54, defect.** `budget_weight` is announced but not used: with `aggregation_weights` equal to the weights of the calls,
everything is accepted and every call announces its share `eps · weight / total`, but every call gets `eps / n`. -/
theorem C54_weight_ignored (te td : ℚ) (ps : List Params) (hne : ps ≠ []) (s0 : State)
    (h0 : PDP.Budget.init te td none (some (ps.map Params.weight)) = .ok s0)
    (hps : ∀ p ∈ ps, p.kind = .laplace ∧ 0 < p.weight ∧ ∃ a b, p.l0 = some a ∧ p.linf = some b ∧ 0 < a ∧ 0 < b) :
    let r : State × List (Except Err Handle) := calls s0 ps
    ∃ later : State, computeBudgets r.1 = (later, .ok ()) ∧
      ∀ (i : ℕ) (p : Params), ps[i]? = some p → ∃ (h : Handle) (m : Mech), r.2[i]? = some (.ok h) ∧ later.mechs[h.spec]? = some m ∧
        h.budget.map Prod.fst = some (te * (p.weight / (ps.map Params.weight).sum)) ∧ m.eps = some (te / ps.length) := by
  intro r
  set ws := ps.map Params.weight with hws
  have hwne : ws ≠ [] := by simpa [hws] using hne
  have hsum : 0 < ws.sum := by
    apply List.sum_pos _ _ hwne
    intro x hx
    obtain ⟨p, hp, rfl⟩ := List.mem_map.mp hx
    exact (hps p hp).2.1
  have hs0 : s0 = ⟨te, td, none, some ws, [], [], [], false⟩ := by
    unfold PDP.Budget.init at h0
    simp only [Option.isSome_none, Bool.false_eq_true, false_and, if_false, Option.any_none] at h0
    split at h0
    · cases h0
    · split at h0
      · cases h0
      · cases h0; rfl
  obtain ⟨c1, c2, c3⟩ := calls_laplace te td ws hwne hsum.ne' ps [] [] fun p hp => ⟨(hps p hp).1, (hps p hp).2.2⟩
  have hr : r = calls ⟨te, td, none, some ws, [], [], [], false⟩ ps := by show calls s0 ps = _; rw [hs0]
  rw [← hr] at c1 c2 c3
  simp only [List.nil_append] at c1
  have hlen : 0 < ps.length := List.length_pos_iff.mpr hne
  have hW : PDP.Budget.totalWeightEps (List.replicate ps.length ⟨.laplace, 1, 1, 1, none, none⟩) = ps.length := by
    unfold PDP.Budget.totalWeightEps
    have : ∀ (n : ℕ) (x : ℚ), (List.replicate n (⟨.laplace, 1, 1, 1, none, none⟩ : Mech)).foldl
        (fun (acc : ℚ) (m : Mech) => acc + m.weight * (m.count : ℚ)) x = x + n := by
      intro n
      induction n with
      | zero => intro x; simp
      | succ n ih => intro x; rw [List.replicate_succ, List.foldl_cons, ih]; push_cast; ring
    rw [this]; simp
  have hcheck : PDP.Budget.checkRestrictions r.1 = true := by
    rw [c1]
    unfold PDP.Budget.checkRestrictions
    rcases hw : ws with _ | ⟨w, l⟩
    · exact absurd hw hwne
    · have hps' : ps.map Params.weight = w :: l := hw
      simp only [PDP.Budget.truthyNum, PDP.Budget.truthyList, Bool.true_and, hps', beq_self_eq_true,
        List.all_eq_true, beq_iff_eq]
      intro x hx
      have : ∀ (l : List ℚ), ∀ x ∈ l.zip l, x.1 = x.2 := by
        intro l
        induction l with
        | nil => simp
        | cons y l ih =>
          intro x hx
          simp only [List.zip_cons_cons, List.mem_cons] at hx
          rcases hx with rfl | hx
          · rfl
          · exact ih x hx
      exact this _ x hx
  have hcomp : ∃ later, computeBudgets r.1 = (later, .ok ()) ∧ later.mechs =
      (List.replicate ps.length (⟨.laplace, 1, 1, 1, none, none⟩ : Mech)).map
        (PDP.Budget.assign te td (ps.length : ℚ) (PDP.Budget.totalWeightDelta (List.replicate ps.length ⟨.laplace, 1, 1, 1, none, none⟩))) := by
    unfold computeBudgets
    rw [hcheck, c1]
    have hrep : List.replicate ps.length (⟨.laplace, 1, 1, 1, none, none⟩ : Mech) ≠ [] := by
      intro h; have := congrArg List.length h; simp at this; exact hne this
    simp only [Bool.true_eq_false, if_false, Bool.false_eq_true, if_neg hrep, ne_eq, not_true, hW]
    exact ⟨_, rfl, rfl⟩
  obtain ⟨later, hl, hmechs⟩ := hcomp
  refine ⟨later, hl, ?_⟩
  intro i p hp
  obtain ⟨h, e1, e2, e3⟩ := c3 i p hp
  have hi : i < ps.length := (List.getElem?_eq_some_iff.mp hp).1
  have hn : (ps.length : ℚ) ≠ 0 := by exact_mod_cast hlen.ne'
  refine ⟨h, PDP.Budget.assign te td ps.length (PDP.Budget.totalWeightDelta (List.replicate ps.length ⟨.laplace, 1, 1, 1, none, none⟩))
    ⟨.laplace, 1, 1, 1, none, none⟩, e1, ?_, by rw [e3]; rfl, ?_⟩
  · rw [hmechs, e2]
    simp [hi]
  · simp [PDP.Budget.assign, hn]

/-- A call meeting the hypotheses of `C54_one_mechanism`, `C54_noise_once` and `C54_needs_budget`. -/
example : ∃ h s', addDpNoise ⟨1, 0, none, some [1, 3], [], [], [], false⟩ ⟨.laplace, some 2, some 5, 3⟩ = (s', .ok h) ∧
    h.budget = some (3 / 4, 0) := by
  obtain ⟨h, h1, h2, h3⟩ := call_laplace ⟨1, 0, none, some [1, 3], [], [], [], false⟩ ⟨.laplace, some 2, some 5, 3⟩ 2 5 rfl rfl rfl
    (by norm_num) (by norm_num) rfl rfl [1, 3] rfl (by simp) (by norm_num) rfl
  exact ⟨h, _, h1, by rw [h2]; norm_num⟩

/-- Two calls with weights 1 and 3 announce a quarter and three quarters of epsilon; both get a half. -/
example : PDP.Budget.init 1 0 none (some ([⟨.laplace, some 2, some 1, 1⟩, ⟨.laplace, some 1, some 5, 3⟩].map Params.weight))
      = .ok ⟨1, 0, none, some [1, 3], [], [], [], false⟩ ∧
    (1 : ℚ) * (3 / ([1, 3] : List ℚ).sum) = 3 / 4 ∧ (1 : ℚ) / 2 ≠ 3 / 4 := by
  refine ⟨rfl, by norm_num, by norm_num⟩

/-- **C54, gap.** A call with only one of the two sensitivities is rejected only after its budget was requested: the mechanism
stays registered and takes its share of the budget. -/
theorem C54_failed_call_charged (s : State) (p : Params) (hv : p.valid = true) (h : p.l0.isSome ≠ p.linf.isSome)
    (hf : s.finalized = false) (hg : p.kind = .laplace ∨ s.totalDelta ≠ 0) :
    addDpNoise s p = (PDP.Budget.register s ⟨mechType p.kind, 1, 1, 1, none, none⟩, .error .sensitivities) := by
  have hm : mkSens (p.l0.map fun x : ℚ => (x : ℝ)) (p.linf.map fun x : ℚ => (x : ℝ)) none none = .error .valueError := by
    apply (PDP.Engine.Mechanism.C58_accepted_iff _ _ _ _).2
    intro hacc
    have := hacc.together
    rw [Option.isSome_map, Option.isSome_map] at this
    cases h1 : p.l0.isSome <;> cases h2 : p.linf.isSome <;> simp_all
  unfold addDpNoise requestBudget
  rw [hf]
  have hg' : ¬ (mechType p.kind = .gaussian ∧ s.totalDelta = 0) := by
    rintro ⟨h1, h2⟩
    rcases hg with hg | hg
    · rw [hg] at h1; cases h1
    · exact hg h2
  simp only [Bool.false_eq_true, if_false, Option.isSome_none, if_neg hg', hm]

example : (⟨.laplace, some 2, none, 1⟩ : Params).valid = true := by decide +kernel

end PDP.Engine.AddNoise
