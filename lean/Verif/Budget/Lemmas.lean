import Verif.Budget.Spec
import Mathlib.Tactic.Linarith
import Mathlib.Tactic.FieldSimp
import Mathlib.Tactic.Ring
import Mathlib.Algebra.Order.Field.Rat
import Mathlib.Algebra.Order.BigOperators.Group.List
import Mathlib.Algebra.BigOperators.Ring.List

/-! Helper lemmas for `Verif/Budget/Props.lean`. -/

namespace PDP.Budget

theorem run_cons (s : State) (op : Op) (ops : List Op) :
    run s (op :: ops) = ((run (step s op).1 ops).1, (step s op).2 :: (run (step s op).1 ops).2) := rfl

theorem run_append (s : State) (a b : List Op) :
    run s (a ++ b) = ((run (run s a).1 b).1, (run s a).2 ++ (run (run s a).1 b).2) := by
  induction a generalizing s with
  | nil => rfl
  | cons op ops ih => simp [run_cons, ih]

theorem accepted_cons (op : Op) (ops : List Op) (o : Out) (outs : List Out) :
    accepted (op :: ops) (o :: outs) = accepted [op] [o] ++ accepted ops outs := by
  cases op <;> cases o <;> simp [accepted]

theorem scaleAll_nil (f : ℚ) (ms : List Mech) : scaleAll f [] ms = ms := rfl

theorem scaleAll_cons (f : ℚ) (i : Nat) (idx : List Nat) (ms : List Mech) :
    scaleAll f (i :: idx) ms
      = scaleAll f idx (ms.modify i fun m => { m with weight := m.weight * f }) := rfl

/-- Scaling weights leaves every projection that ignores the weight unchanged. -/
theorem map_scaleAll {α} (g : Mech → α) (hg : ∀ m w, g { m with weight := w } = g m)
    (f : ℚ) (idx : List Nat) (ms : List Mech) : (scaleAll f idx ms).map g = ms.map g := by
  induction idx generalizing ms with
  | nil => rfl
  | cons i idx ih =>
    rw [scaleAll_cons, ih]
    apply List.ext_getElem?
    intro j
    simp only [List.getElem?_map, List.getElem?_modify]
    by_cases h : i = j
    · subst h; cases ms[i]? <;> simp [hg]
    · cases ms[j]? <;> simp [h]

/-- `sgn true x`: positive; `sgn false x`: non-negative. -/
def sgn (strict : Bool) (x : ℚ) : Prop := if strict then 0 < x else 0 ≤ x

theorem sgn.nonneg {b x} (h : sgn b x) : 0 ≤ x := by
  cases b <;> simp [sgn] at h <;> linarith

theorem sgn.mul_pos {b x y} (h : sgn b x) (hy : 0 < y) : sgn b (x * y) := by
  cases b <;> simp [sgn] at h ⊢
  · exact mul_nonneg h hy.le
  · exact _root_.mul_pos h hy

theorem sgn.mul {b x y} (h : sgn b x) (hy : sgn b y) : sgn b (x * y) := by
  cases b <;> simp [sgn] at h hy ⊢
  · exact mul_nonneg h hy
  · exact _root_.mul_pos h hy

theorem sgn.div_pos {b x y} (h : sgn b x) (hy : 0 < y) : sgn b (x / y) := by
  rw [div_eq_mul_inv]; exact h.mul_pos (inv_pos.mpr hy)

theorem scaleAll_sgn {b f} (hf : sgn b f) (idx : List Nat) (ms : List Mech)
    (h : ∀ m ∈ ms, sgn b m.weight) : ∀ m ∈ scaleAll f idx ms, sgn b m.weight := by
  induction idx generalizing ms with
  | nil => exact h
  | cons i idx ih =>
    rw [scaleAll_cons]
    apply ih
    intro m hm
    rw [List.mem_iff_getElem?] at hm
    obtain ⟨j, hj⟩ := hm
    rw [List.getElem?_modify] at hj
    cases hx : ms[j]? with
    | none => simp [hx] at hj
    | some m0 =>
      have hm0 := h m0 (List.mem_of_getElem? hx)
      simp [hx] at hj
      subst hj
      split
      · exact hm0.mul hf
      · exact hm0

theorem weightAt_nonneg {b} (ms : List Mech) (h : ∀ m ∈ ms, sgn b m.weight) (i : Nat) :
    0 ≤ weightAt ms i := by
  unfold weightAt
  cases hx : ms[i]? with
  | none => simp
  | some m => simpa using (h m (List.mem_of_getElem? hx)).nonneg

theorem totalWeightEps_eq (ms : List Mech) :
    totalWeightEps ms = (ms.map fun m => m.weight * (m.count : ℚ)).sum := by
  have : ∀ a, ms.foldl (fun acc m => acc + m.weight * (m.count : ℚ)) a
      = a + (ms.map fun m => m.weight * (m.count : ℚ)).sum := by
    induction ms with
    | nil => simp
    | cons m ms ih => intro a; simp only [List.foldl_cons, ih, List.map_cons, List.sum_cons]; ring
  simpa [totalWeightEps] using this 0

theorem totalWeightDelta_eq (ms : List Mech) :
    totalWeightDelta ms = (ms.map fun m => if m.useDelta then m.weight * (m.count : ℚ) else 0).sum := by
  have : ∀ a, ms.foldl (fun acc m => if m.useDelta then acc + m.weight * (m.count : ℚ) else acc) a
      = a + (ms.map fun m => if m.useDelta then m.weight * (m.count : ℚ) else 0).sum := by
    induction ms with
    | nil => simp
    | cons m ms ih =>
      intro a; simp only [List.foldl_cons, ih, List.map_cons, List.sum_cons]; split <;> ring
  simpa [totalWeightDelta] using this 0

/-- All granted values are present; sums are the pipeline totals unless everything is 0. -/
structure Published (e d : ℚ) (ms : List Mech) : Prop where
  eps : ∀ m ∈ ms, m.eps.isSome
  delta : ∀ m ∈ ms, m.delta.isSome
  noDelta : ∀ m ∈ ms, m.mtype = .laplace → m.delta = some 0
  sumEps : (ms.map fun m => (m.count : ℚ) * m.eps.getD 0).sum = e ∨ ∀ m ∈ ms, m.eps = some 0
  sumDelta : (ms.map fun m => (m.count : ℚ) * m.delta.getD 0).sum = d ∨ ∀ m ∈ ms, m.delta = some 0

theorem published_assign (e d : ℚ) (ms : List Mech) :
    Published e d (ms.map (assign e d (totalWeightEps ms) (totalWeightDelta ms))) := by
  constructor
  · simp [assign]
  · simp [assign]
  · simp only [List.mem_map, forall_exists_index, and_imp]
    rintro m m0 h0 rfl hl
    have hl : m0.mtype = .laplace := hl
    simp [assign, Mech.useDelta, hl]
  · by_cases h : totalWeightEps ms = 0
    · right; simp [assign, h]
    · left
      have hE := totalWeightEps_eq ms
      set W := totalWeightEps ms with hW
      rw [List.map_map]
      have : ((fun m : Mech => (m.count : ℚ) * m.eps.getD 0) ∘ assign e d W (totalWeightDelta ms))
          = fun m => (m.weight * m.count) * (e / W) := by
        funext m; simp [assign, h]; ring
      rw [this, List.sum_map_mul_right, ← hE]
      field_simp
  · by_cases h : totalWeightDelta ms = 0
    · right; simp [assign, h]
    · left
      have hE := totalWeightDelta_eq ms
      set W := totalWeightDelta ms with hW
      rw [List.map_map]
      have : ((fun m : Mech => (m.count : ℚ) * m.delta.getD 0) ∘ assign e d (totalWeightEps ms) W)
          = fun m => (if m.useDelta then m.weight * m.count else 0) * (d / W) := by
        funext m; simp [assign, h]
        split
        · ring
        · simp
      rw [this, List.sum_map_mul_right, ← hE]
      field_simp

/-- `Published` ignores weights. -/
theorem Published.congr {e d ms ms'} (h : Published e d ms)
    (hm : ms'.map (fun m => (m.mtype, m.count, m.eps, m.delta))
        = ms.map (fun m => (m.mtype, m.count, m.eps, m.delta))) : Published e d ms' := by
  have hmem : ∀ m' ∈ ms', ∃ m ∈ ms, m.mtype = m'.mtype ∧ m.count = m'.count ∧ m.eps = m'.eps
      ∧ m.delta = m'.delta := by
    intro m' h'
    have : (m'.mtype, m'.count, m'.eps, m'.delta)
        ∈ ms'.map (fun m => (m.mtype, m.count, m.eps, m.delta)) :=
      List.mem_map.mpr ⟨m', h', rfl⟩
    rw [hm] at this
    obtain ⟨m, hmm, heq⟩ := List.mem_map.mp this
    simp only [Prod.mk.injEq] at heq
    exact ⟨m, hmm, heq.1, heq.2.1, heq.2.2.1, heq.2.2.2⟩
  have hE : (ms'.map fun m => (m.count : ℚ) * m.eps.getD 0)
      = (ms.map fun m => (m.count : ℚ) * m.eps.getD 0) := by
    have := congrArg (List.map fun x : MechType × ℤ × Option ℚ × Option ℚ =>
      (x.2.1 : ℚ) * x.2.2.1.getD 0) hm
    simpa [List.map_map, Function.comp_def] using this
  have hD : (ms'.map fun m => (m.count : ℚ) * m.delta.getD 0)
      = (ms.map fun m => (m.count : ℚ) * m.delta.getD 0) := by
    have := congrArg (List.map fun x : MechType × ℤ × Option ℚ × Option ℚ =>
      (x.2.1 : ℚ) * x.2.2.2.getD 0) hm
    simpa [List.map_map, Function.comp_def] using this
  constructor
  · intro m' h'; obtain ⟨m, hm, -, -, h3, -⟩ := hmem m' h'; rw [← h3]; exact h.eps m hm
  · intro m' h'; obtain ⟨m, hm, -, -, -, h4⟩ := hmem m' h'; rw [← h4]; exact h.delta m hm
  · intro m' h' hl; obtain ⟨m, hm, h1, -, -, h4⟩ := hmem m' h'; rw [← h4]
    exact h.noDelta m hm (h1.trans hl)
  · rw [hE]; rcases h.sumEps with h | h
    · exact .inl h
    · right; intro m' h'; obtain ⟨m, hm, -, -, h3, -⟩ := hmem m' h'; rw [← h3]; exact h m hm
  · rw [hD]; rcases h.sumDelta with h | h
    · exact .inl h
    · right; intro m' h'; obtain ⟨m, hm, -, -, -, h4⟩ := hmem m' h'; rw [← h4]; exact h m hm

/-- Invariant of every reachable state. -/
structure Inv (e d : ℚ) (s : State) (acc : List (MechType × ℤ)) : Prop where
  te : s.totalEps = e
  td : s.totalDelta = d
  reqs : s.mechs.map (fun m => (m.mtype, m.count)) = acc
  status : (∀ m ∈ s.mechs, m.eps = none ∧ m.delta = none) ∨
    (s.finalized = true ∧ Published e d s.mechs)

theorem none_congr {ms ms' : List Mech} (h : ∀ m ∈ ms, m.eps = none ∧ m.delta = none)
    (hm : ms'.map (fun m => (m.mtype, m.count, m.eps, m.delta))
        = ms.map (fun m => (m.mtype, m.count, m.eps, m.delta))) :
    ∀ m ∈ ms', m.eps = none ∧ m.delta = none := by
  intro m' h'
  have : (m'.mtype, m'.count, m'.eps, m'.delta)
      ∈ ms'.map (fun m => (m.mtype, m.count, m.eps, m.delta)) :=
    List.mem_map.mpr ⟨m', h', rfl⟩
  rw [hm] at this
  obtain ⟨m, hmm, heq⟩ := List.mem_map.mp this
  simp only [Prod.mk.injEq] at heq
  rw [← heq.2.2.1, ← heq.2.2.2]; exact h m hmm

theorem Inv.of_mechs {e d s s' acc} (h : Inv e d s acc) (h1 : s'.totalEps = s.totalEps)
    (h2 : s'.totalDelta = s.totalDelta) (h3 : s'.finalized = s.finalized)
    (hm : s'.mechs.map (fun m => (m.mtype, m.count, m.eps, m.delta))
        = s.mechs.map (fun m => (m.mtype, m.count, m.eps, m.delta))) : Inv e d s' acc := by
  refine ⟨h1.trans h.te, h2.trans h.td, ?_, ?_⟩
  · have := congrArg (List.map fun x : MechType × ℤ × Option ℚ × Option ℚ => (x.1, x.2.1)) hm
    simp only [List.map_map, Function.comp_def] at this
    rw [this]; exact h.reqs
  · rcases h.status with h' | h'
    · exact .inl (none_congr h' hm)
    · exact .inr ⟨h3 ▸ h'.1, h'.2.congr hm⟩

theorem inv_init {e d num ws s0} (h : init e d num ws = .ok s0) : Inv e d s0 [] := by
  unfold init at h
  split_ifs at h
  simp only [Except.ok.injEq] at h
  subst h
  exact ⟨rfl, rfl, rfl, .inl (by simp)⟩

theorem inv_step {e d s acc} (h : Inv e d s acc) (op : Op) :
    Inv e d (step s op).1 (acc ++ accepted [op] [(step s op).2]) := by
  cases op with
  | request t sens w c n =>
    simp only [step, requestBudget]
    split_ifs with h1 h2 h3
    · simpa [accepted] using h
    · simpa [accepted] using h
    · simpa [accepted] using h
    · refine ⟨h.te, h.td, ?_, ?_⟩
      · simp [register, accepted, h.reqs]
      · left
        rcases h.status with h' | h'
        · intro m hm
          simp only [register, List.mem_append, List.mem_singleton] at hm
          rcases hm with hm | rfl
          · exact h' m hm
          · simp
        · exact absurd h'.1 h1
  | enter w => simp only [step, accepted, List.append_nil]; exact h.of_mechs rfl rfl rfl rfl
  | exit =>
    simp only [step, exitScope]
    split <;> rename_i heq
    · split at heq
      · simp at heq
      · split_ifs at heq <;> simp only [Prod.mk.injEq] at heq
        · obtain ⟨rfl, -⟩ := heq
          simp only [accepted, List.append_nil]
          exact h.of_mechs rfl rfl rfl rfl
        · simp at heq
        · obtain ⟨rfl, -⟩ := heq
          simp only [accepted, List.append_nil]
          exact h.of_mechs rfl rfl rfl (map_scaleAll _ (fun _ _ => rfl) _ _ _)
    · split at heq
      · simp only [Prod.mk.injEq] at heq
        obtain ⟨rfl, -⟩ := heq
        simpa [accepted] using h
      · split_ifs at heq <;> simp only [Prod.mk.injEq] at heq
        · simp at heq
        · obtain ⟨rfl, -⟩ := heq
          simp only [accepted, List.append_nil]
          exact h.of_mechs rfl rfl rfl rfl
        · simp at heq
  | aggregation w =>
    have : Inv e d (computeBudgetForAggregation s w).1 acc := by
      unfold computeBudgetForAggregation
      simp only
      split
      · exact h.of_mechs rfl rfl rfl rfl
      · split
        · split_ifs <;> exact h.of_mechs rfl rfl rfl rfl
        · exact h.of_mechs rfl rfl rfl rfl
    simp only [step]
    split <;> rename_i heq <;> rw [heq] at this <;> simpa [accepted] using this
  | compute =>
    have : Inv e d (computeBudgets s).1 acc := by
      unfold computeBudgets
      split_ifs with h1 h2
      · exact h
      · exact h
      · simp only
        have h0 : ∀ m ∈ s.mechs, m.eps = none ∧ m.delta = none := by
          rcases h.status with h' | h'
          · exact h'
          · exact absurd h'.1 h2
        split_ifs with h3 h4
        · exact ⟨h.te, h.td, h.reqs, .inl h0⟩
        · exact ⟨h.te, h.td, h.reqs, .inl h0⟩
        · refine ⟨h.te, h.td, ?_, .inr ⟨rfl, ?_⟩⟩
          · simp only [List.map_map, Function.comp_def, assign]; exact h.reqs
          · simp only [h.te, h.td]; exact published_assign e d s.mechs
    simp only [step]
    split <;> rename_i heq <;> rw [heq] at this <;> simpa [accepted] using this
  | readEps i => simpa [step, accepted] using h
  | readDelta i => simpa [step, accepted] using h

theorem inv_run {e d s acc} (h : Inv e d s acc) (ops : List Op) :
    Inv e d (run s ops).1 (acc ++ accepted ops (run s ops).2) := by
  induction ops generalizing s acc with
  | nil => simpa [run, accepted] using h
  | cons op ops ih =>
    rw [run_cons]
    have := ih (inv_step h op)
    rw [accepted_cons, ← List.append_assoc]
    exact this

/-- Sign condition on one call. -/
def Op.Sgn (b : Bool) : Op → Prop
  | .request _ _ w c _ => sgn b w ∧ sgn b (c : ℚ)
  | .enter w => sgn b w
  | _ => True

/-- Sign invariant. -/
structure SgnInv (b : Bool) (e d : ℚ) (s : State) : Prop where
  te : s.totalEps = e
  td : s.totalDelta = d
  weights : ∀ m ∈ s.mechs, sgn b m.weight
  counts : ∀ m ∈ s.mechs, sgn b (m.count : ℚ)
  scopes : ∀ sc ∈ s.stack, sgn b sc.weight
  eps : ∀ m ∈ s.mechs, ∀ q, m.eps = some q → sgn b q
  delta : ∀ m ∈ s.mechs, ∀ q, m.delta = some q → 0 ≤ q ∧ (b = true → 0 < d → m.mtype ≠ .laplace → 0 < q)

theorem sum_pos_of_mem {α} (l : List α) (f : α → ℚ) (h : ∀ a ∈ l, 0 ≤ f a) {a} (ha : a ∈ l)
    (hpos : 0 < f a) : 0 < (l.map f).sum := by
  have hle : f a ≤ (l.map f).sum := by
    apply List.single_le_sum (l := l.map f)
    · simpa using h
    · exact List.mem_map_of_mem ha
  linarith

theorem sgnInv_step {b e d s} (he : 0 < e) (hd : 0 ≤ d) (h : SgnInv b e d s) (op : Op)
    (hop : op.Sgn b) : SgnInv b e d (step s op).1 := by
  cases op with
  | request t sens w c n =>
    simp only [step, requestBudget]
    split_ifs with h1 h2 h3
    · exact h
    · exact h
    · exact h
    · refine ⟨h.te, h.td, ?_, ?_, ?_, ?_, ?_⟩ <;> simp only [register, List.mem_append, List.mem_singleton, List.mem_map]
      · rintro m (hm | rfl)
        · exact h.weights m hm
        · exact hop.1
      · rintro m (hm | rfl)
        · exact h.counts m hm
        · exact hop.2
      · rintro sc ⟨sc0, h0, rfl⟩
        exact h.scopes sc0 h0
      · rintro m (hm | rfl)
        · exact h.eps m hm
        · simp
      · rintro m (hm | rfl)
        · exact h.delta m hm
        · simp
  | enter w =>
    refine ⟨h.te, h.td, h.weights, h.counts, ?_, h.eps, h.delta⟩
    intro sc hsc
    simp only [step, enterScope, List.mem_cons] at hsc
    rcases hsc with rfl | hsc
    · exact hop
    · exact h.scopes sc hsc
  | exit =>
    have : SgnInv b e d (exitScope s).1 := by
      unfold exitScope
      split
      · exact h
      · rename_i sc rest hst
        have hrest : ∀ sc ∈ rest, sgn b sc.weight := fun x hx => h.scopes x (by simp [hst, hx])
        simp only
        split_ifs with h1 h2
        · exact ⟨h.te, h.td, h.weights, h.counts, hrest, h.eps, h.delta⟩
        · exact ⟨h.te, h.td, h.weights, h.counts, hrest, h.eps, h.delta⟩
        · have htot : 0 < (sc.mechs.map (weightAt s.mechs)).sum := by
            apply lt_of_le_of_ne _ (Ne.symm h2)
            apply List.sum_nonneg
            intro x hx
            obtain ⟨i, -, rfl⟩ := List.mem_map.mp hx
            exact weightAt_nonneg _ h.weights i
          have hf := (h.scopes sc (by simp [hst])).div_pos htot
          have hmap := map_scaleAll (fun m => (m.mtype, m.count, m.eps, m.delta))
            (fun _ _ => rfl) (sc.weight / (sc.mechs.map (weightAt s.mechs)).sum) sc.mechs s.mechs
          have hmem : ∀ m' ∈ scaleAll (sc.weight / (sc.mechs.map (weightAt s.mechs)).sum) sc.mechs s.mechs,
              ∃ m ∈ s.mechs, m.mtype = m'.mtype ∧ m.count = m'.count ∧ m.eps = m'.eps
              ∧ m.delta = m'.delta := by
            intro m' h'
            have := List.mem_map_of_mem (f := fun m : Mech => (m.mtype, m.count, m.eps, m.delta)) h'
            rw [hmap] at this
            obtain ⟨m, hmm, heq⟩ := List.mem_map.mp this
            simp only [Prod.mk.injEq] at heq
            exact ⟨m, hmm, heq.1, heq.2.1, heq.2.2.1, heq.2.2.2⟩
          refine ⟨h.te, h.td, scaleAll_sgn hf _ _ h.weights, ?_, hrest, ?_, ?_⟩
          · intro m' h'; obtain ⟨m, hm, -, h2, -, -⟩ := hmem m' h'; rw [← h2]; exact h.counts m hm
          · intro m' h'; obtain ⟨m, hm, -, -, h3, -⟩ := hmem m' h'; rw [← h3]; exact h.eps m hm
          · intro m' h'; obtain ⟨m, hm, h1, -, -, h4⟩ := hmem m' h'
            rw [← h4, ← h1]; exact h.delta m hm
    simp only [step]
    split <;> rename_i heq <;> rw [heq] at this <;> exact this
  | aggregation w =>
    have : SgnInv b e d (computeBudgetForAggregation s w).1 := by
      have h' : SgnInv b e d { s with actualWeights := s.actualWeights ++ [w] } :=
        ⟨h.te, h.td, h.weights, h.counts, h.scopes, h.eps, h.delta⟩
      unfold computeBudgetForAggregation
      simp only
      split
      · exact h'
      · split
        · split_ifs <;> exact h'
        · exact h'
    simp only [step]
    split <;> rename_i heq <;> rw [heq] at this <;> exact this
  | compute =>
    have : SgnInv b e d (computeBudgets s).1 := by
      unfold computeBudgets
      have h' : SgnInv b e d { s with finalized := true } :=
        ⟨h.te, h.td, h.weights, h.counts, h.scopes, h.eps, h.delta⟩
      split_ifs with h1 h2
      · exact h
      · exact h
      · simp only
        split_ifs with h3 h4
        · exact h'
        · exact h'
        · have hwc : ∀ m ∈ s.mechs, sgn b (m.weight * m.count) :=
            fun m hm => (h.weights m hm).mul (h.counts m hm)
          have hE0 : 0 ≤ totalWeightEps s.mechs := by
            rw [totalWeightEps_eq]
            apply List.sum_nonneg; intro x hx
            obtain ⟨m, hm, rfl⟩ := List.mem_map.mp hx
            exact (hwc m hm).nonneg
          have hD0 : 0 ≤ totalWeightDelta s.mechs := by
            rw [totalWeightDelta_eq]
            apply List.sum_nonneg; intro x hx
            obtain ⟨m, hm, rfl⟩ := List.mem_map.mp hx
            split
            · exact (hwc m hm).nonneg
            · exact le_refl _
          refine ⟨h.te, h.td, ?_, ?_, h.scopes, ?_, ?_⟩ <;>
            simp only [List.mem_map, forall_exists_index, and_imp]
          · rintro _ m hm rfl; exact h.weights m hm
          · rintro _ m hm rfl; exact h.counts m hm
          · rintro _ m hm rfl q hq
            simp only [assign, Option.some.injEq] at hq
            subst hq
            split_ifs with hw
            · rw [h.te, mul_div_assoc, mul_comm]
              exact ((h.weights m hm).div_pos (lt_of_le_of_ne hE0 (Ne.symm hw))).mul_pos he
            · cases b
              · simp [sgn]
              · exfalso
                apply hw
                rw [totalWeightEps_eq]
                apply ne_of_gt
                apply sum_pos_of_mem _ _ (fun a ha => (hwc a ha).nonneg) hm
                simpa [sgn] using hwc m hm
          · rintro _ m hm rfl q hq
            simp only [assign, Option.some.injEq] at hq
            subst hq
            rw [h.td]
            constructor
            · split_ifs with hu hw
              · exact div_nonneg (mul_nonneg hd (h.weights m hm).nonneg) hD0
              · exact le_refl _
              · exact le_refl _
            · rintro rfl hdp hl
              have hu : m.useDelta = true := by
                have hl : m.mtype ≠ .laplace := hl
                simpa [Mech.useDelta] using hl
              have hWD : 0 < totalWeightDelta s.mechs := by
                rw [totalWeightDelta_eq]
                apply sum_pos_of_mem _ _ _ hm
                · simpa [sgn, hu] using hwc m hm
                · intro a ha; split
                  · exact (hwc a ha).nonneg
                  · exact le_refl _
              rw [if_pos hu, if_pos hWD.ne']
              have := h.weights m hm
              simp only [sgn, if_true] at this
              exact div_pos (mul_pos hdp this) hWD
    simp only [step]
    split <;> rename_i heq <;> rw [heq] at this <;> exact this
  | readEps i => exact h
  | readDelta i => exact h

theorem sgnInv_run {b e d s} (he : 0 < e) (hd : 0 ≤ d) (h : SgnInv b e d s) (ops : List Op)
    (hop : ∀ op ∈ ops, op.Sgn b) : SgnInv b e d (run s ops).1 := by
  induction ops generalizing s with
  | nil => exact h
  | cons op ops ih =>
    rw [run_cons]
    exact ih (sgnInv_step he hd h op (hop op (by simp))) (fun o ho => hop o (by simp [ho]))

theorem init_facts {e d num ws s0} (h : init e d num ws = .ok s0) :
    0 < e ∧ 0 ≤ d ∧ d < 1 ∧ s0 = ⟨e, d, num, ws, [], [], [], false⟩
    ∧ ¬ (num.isSome ∧ ws.isSome) ∧ (∀ n, num = some n → 0 < n) := by
  unfold init at h
  split_ifs at h with h1 h2 h3 h4
  simp only [Except.ok.injEq] at h
  push Not at h1 h2
  refine ⟨h1, h2.1, h2.2, h.symm, h3, ?_⟩
  rintro n rfl
  simpa using h4

theorem sgnInv_init {b e d num ws s0} (h : init e d num ws = .ok s0) : SgnInv b e d s0 := by
  obtain ⟨-, -, -, rfl, -⟩ := init_facts h
  constructor <;> simp

theorem Op.Positive.sgn {op : Op} (h : op.Positive) : op.Sgn true := by
  cases op <;> simp_all [Op.Positive, Op.Sgn, PDP.Budget.sgn]

theorem Op.NonNeg.sgn {op : Op} (h : op.NonNeg) : op.Sgn false := by
  cases op <;> simp_all [Op.NonNeg, Op.Sgn, PDP.Budget.sgn]

theorem seesEps_iff {s j q} : seesEps s j q ↔ ∃ m, s.mechs[j]? = some m ∧ m.eps = some q := by
  unfold seesEps step readField
  simp only
  cases h : s.mechs[j]? with
  | none => simp
  | some m => cases h' : m.eps <;> simp [h']

theorem seesDelta_iff {s j q} : seesDelta s j q ↔ ∃ m, s.mechs[j]? = some m ∧ m.delta = some q := by
  unfold seesDelta step readField
  simp only
  cases h : s.mechs[j]? with
  | none => simp
  | some m => cases h' : m.delta <;> simp [h']

theorem spent_eq (f : Mech → ℚ) (ms : List Mech) :
    spent (ms.map fun m => (m.mtype, m.count)) (ms.map f)
      = (ms.map fun m => (m.count : ℚ) * f m).sum := by
  unfold spent
  congr 1
  induction ms with
  | nil => rfl
  | cons m ms ih => simp [ih]

/-- A finalised accountant keeps its mechanisms, up to weights. -/
theorem finalized_step {s : State} (h : s.finalized = true) (op : Op) :
    (step s op).1.finalized = true ∧
    (step s op).1.mechs.map (fun m => (m.mtype, m.count, m.eps, m.delta))
      = s.mechs.map (fun m => (m.mtype, m.count, m.eps, m.delta)) := by
  cases op with
  | request t sens w c n => simp [step, requestBudget, h]
  | enter w => exact ⟨h, rfl⟩
  | exit =>
    have : (exitScope s).1.finalized = true ∧
        (exitScope s).1.mechs.map (fun m => (m.mtype, m.count, m.eps, m.delta))
          = s.mechs.map (fun m => (m.mtype, m.count, m.eps, m.delta)) := by
      unfold exitScope
      split
      · exact ⟨h, rfl⟩
      · simp only; split_ifs
        · exact ⟨h, rfl⟩
        · exact ⟨h, rfl⟩
        · exact ⟨h, map_scaleAll _ (fun _ _ => rfl) _ _ _⟩
    simp only [step]; split <;> rename_i heq <;> rw [heq] at this <;> exact this
  | aggregation w =>
    have : (computeBudgetForAggregation s w).1.finalized = true ∧
        (computeBudgetForAggregation s w).1.mechs = s.mechs := by
      unfold computeBudgetForAggregation
      simp only
      split
      · exact ⟨h, rfl⟩
      · split
        · split_ifs <;> exact ⟨h, rfl⟩
        · exact ⟨h, rfl⟩
    simp only [step]; split <;> rename_i heq <;> rw [heq] at this <;>
      exact ⟨this.1, by rw [← this.2]⟩
  | compute =>
    have : (step s .compute).1 = s := by
      simp only [step, computeBudgets, h]
      by_cases h1 : checkRestrictions s = false <;> simp [h1]
    rw [this]; exact ⟨h, rfl⟩
  | readEps i => exact ⟨h, rfl⟩
  | readDelta i => exact ⟨h, rfl⟩

theorem finalized_run {s : State} (h : s.finalized = true) (ops : List Op) :
    (run s ops).1.finalized = true ∧
    (run s ops).1.mechs.map (fun m => (m.mtype, m.count, m.eps, m.delta))
      = s.mechs.map (fun m => (m.mtype, m.count, m.eps, m.delta)) := by
  induction ops generalizing s with
  | nil => exact ⟨h, rfl⟩
  | cons op ops ih =>
    rw [run_cons]
    obtain ⟨h1, h2⟩ := finalized_step h op
    obtain ⟨h3, h4⟩ := ih h1
    exact ⟨h3, h4.trans h2⟩

theorem readField_congr {s s' : State} (hm : s'.mechs.map (fun m => (m.mtype, m.count, m.eps, m.delta))
      = s.mechs.map (fun m => (m.mtype, m.count, m.eps, m.delta))) (j : Nat) :
    readField Mech.eps s' j = readField Mech.eps s j ∧
    readField Mech.delta s' j = readField Mech.delta s j := by
  have := congrArg (fun l => l[j]?) hm
  simp only [List.getElem?_map] at this
  unfold readField
  cases h1 : s'.mechs[j]? <;> cases h2 : s.mechs[j]? <;> simp [h1, h2] at this ⊢
  simp [this]

/-- Case analysis of `compute_budgets`. -/
theorem compute_cases (s : State) :
    (checkRestrictions s = false ∧ step s .compute = (s, .raised .aggregationRestriction)) ∨
    (s.finalized = true ∧ step s .compute = (s, .raised .computeTwice)) ∨
    (s.finalized = false ∧ checkRestrictions s = true ∧ (
      (s.mechs = [] ∧ step s .compute = ({ s with finalized := true }, .unit)) ∨
      (s.mechs ≠ [] ∧ s.stack ≠ [] ∧
        step s .compute = ({ s with finalized := true }, .raised .insideScope)) ∨
      (s.mechs ≠ [] ∧ s.stack = [] ∧
        step s .compute = ({ s with
          finalized := true
          mechs := s.mechs.map (assign s.totalEps s.totalDelta (totalWeightEps s.mechs)
            (totalWeightDelta s.mechs)) }, .unit)))) := by
  by_cases h1 : checkRestrictions s = false
  · left; simp [step, computeBudgets, h1]
  · by_cases h2 : s.finalized = true
    · right; left; simp [step, computeBudgets, h1, h2]
    · right; right
      have h1' : checkRestrictions s = true := by simpa using h1
      have h2' : s.finalized = false := by simpa using h2
      refine ⟨h2', h1', ?_⟩
      by_cases h3 : s.mechs = []
      · left; simp [step, computeBudgets, h1', h2', h3]
      · by_cases h4 : s.stack = []
        · right; right; simp [step, computeBudgets, h1', h2', h3, h4]
        · right; left; simp [step, computeBudgets, h1', h2', h3, h4]

theorem compute_finalizes {s : State} (hc : (step s .compute).2 = .unit) :
    (step s .compute).1.finalized = true := by
  rcases compute_cases s with ⟨_, h⟩ | ⟨_, h⟩ | ⟨_, _, ⟨_, h⟩ | ⟨_, _, h⟩ | ⟨_, _, h⟩⟩ <;>
    rw [h] at hc ⊢ <;> simp at hc

end PDP.Budget
