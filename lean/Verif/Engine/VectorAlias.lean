import Mathlib.Algebra.BigOperators.Group.List.Basic
import Mathlib.Algebra.Group.Pi.Basic
import Mathlib.Algebra.Module.Pi
import Mathlib.Data.Rat.Defs
import Mathlib.Algebra.Field.Rat
import Mathlib.Logic.Function.Basic
import Mathlib.Tactic.Ring
import Mathlib.Tactic.Abel
import Mathlib.Tactic.NormNum

/-!
# Property C97: VECTOR_SUM and the arrays of the caller

`VectorSumCombiner.create_accumulator` starts with the first array itself and adds the others in place. Here values are objects in a
memory, so that the effect of this is visible. Everything runs in one process, as on `LocalBackend`.
-/

namespace PDP.Engine.VectorAlias

/-! ### Model -/

/-- A one-dimensional array: its size and its entries. Simplification: rational entries, no dtype. -/
structure Vec where
  size : ℕ
  entry : ℕ → ℚ

/-- The memory: arrays by address; addresses from `next` on are free. -/
structure Mem where
  heap : ℕ → Vec
  next : ℕ

/-- A value as the value extractor returns it: a numpy array, which is an object in the memory, or any other sequence. -/
inductive Val
  | array (addr : ℕ)
  | seq (v : Vec)

inductive Err
  | shapeMismatch
  deriving DecidableEq

/-- `if not isinstance(val, np.ndarray): val = np.array(val)` (`pipeline_dp/combiners.py:815-816`): a sequence is copied into a new
array, an array is taken as it is. -/
def load (m : Mem) : Val → Mem × ℕ
  | .array a => (m, a)
  | .seq v => ({ heap := Function.update m.heap m.next v, next := m.next + 1 }, m.next)

/-- `array_sum += val` (`pipeline_dp/combiners.py:824`): in place. -/
def addInPlace (m : Mem) (s a : ℕ) : Mem :=
  { m with heap := Function.update m.heap s ⟨(m.heap s).size, (m.heap s).entry + (m.heap a).entry⟩ }

/-- The loop of `VectorSumCombiner.create_accumulator` (`pipeline_dp/combiners.py:814-825`) from `array_sum = acc` on. -/
def accumulate (size : ℕ) : Mem → Option ℕ → List Val → Except Err (Mem × Option ℕ)
  | m, acc, [] => .ok (m, acc)
  | m, acc, v :: vs =>
    let l := load m v
    if (l.1.heap l.2).size ≠ size then .error .shapeMismatch
    else match acc with
      | none => accumulate size l.1 (some l.2) vs
      | some s => accumulate size (addInPlace l.1 s l.2) (some s) vs

/-- `VectorSumCombiner.create_accumulator` (`pipeline_dp/combiners.py:811-825`). -/
def createAccumulator (size : ℕ) (m : Mem) (vs : List Val) : Except Err (Mem × Option ℕ) := accumulate size m none vs

/-- `aggregate_fn` on the values of every (privacy id, partition), in their order (`pipeline_dp/contribution_bounders.py:88-90`). The
result are the partition keys with the addresses of the accumulators; the values of a pair are never empty there, empty ones give no
accumulator. -/
def accumulators {K : Type} (size : ℕ) : Mem → List (K × List Val) → Except Err (Mem × List (K × Option ℕ))
  | m, [] => .ok (m, [])
  | m, (k, vs) :: gs =>
    match createAccumulator size m vs with
    | .error e => .error e
    | .ok (m1, r) =>
      match accumulators size m1 gs with
      | .error e => .error e
      | .ok (m2, rs) => .ok (m2, (k, r) :: rs)

/-- The exact vector of a partition before noise: `combine_accumulators_per_key` groups all accumulators before it merges the first
two (`pipeline_dp/pipeline_backend.py:503-512, 555-565`), and `array_sum1 + array_sum2` is a new array
(`pipeline_dp/combiners.py:827-829`). -/
def total {K : Type} [DecidableEq K] (m : Mem) (rs : List (K × Option ℕ)) (k : K) : ℕ → ℚ :=
  (rs.map fun p => if p.1 = k then (match p.2 with | some a => (m.heap a).entry | none => 0) else 0).sum

/-- The elements with a mark. -/
def selected {α : Type} (keep : List Bool) (l : List α) : List α := ((l.zip keep).filter fun p => p.2).map fun p => p.1

/-- The exact vectors of an aggregation, and the memory after it. `keep` marks the pairs of user and partition that cross-partition
bounding keeps; it comes after all accumulators are created, because sampling groups the accumulators by user first
(`pipeline_dp/contribution_bounders.py:93-98`, `pipeline_dp/pipeline_backend.py:531-547`). -/
def exactSums {K : Type} [DecidableEq K] (size : ℕ) (m : Mem) (keep : List Bool) (groups : List (K × List Val)) :
    Except Err (Mem × (K → ℕ → ℚ)) :=
  match accumulators size m groups with
  | .error e => .error e
  | .ok (m', rs) => .ok (m', total m' (selected keep rs))

/-! ### Specification -/

/-- What a value reads before the aggregation. -/
def content (m : Mem) : Val → ℕ → ℚ
  | .array a => (m.heap a).entry
  | .seq v => v.entry

/-- Its size. -/
def sizeOf (m : Mem) : Val → ℕ
  | .array a => (m.heap a).size
  | .seq v => v.size

/-- The addresses of the arrays among values. -/
def addrs (vs : List Val) : List ℕ := vs.filterMap fun v => match v with | .array a => some a | .seq _ => none

/-- All arrays of the caller. -/
def allAddrs {K : Type} (gs : List (K × List Val)) : List ℕ := gs.flatMap fun g => addrs g.2

/-- The arrays that come first among the values of a user in a partition. -/
def firsts {K : Type} (gs : List (K × List Val)) : List ℕ := gs.flatMap fun g => addrs (g.2.take 1)

/-- The vector a partition should have: the sum of its values. -/
def trueSum {K : Type} [DecidableEq K] (m : Mem) (gs : List (K × List Val)) (k : K) : ℕ → ℚ :=
  (gs.map fun g => if g.1 = k then (g.2.map (content m)).sum else 0).sum

/-- The values have the size given in the parameters and their arrays exist. -/
def Fits {K : Type} (size : ℕ) (m : Mem) (gs : List (K × List Val)) : Prop :=
  (∀ g ∈ gs, ∀ v ∈ g.2, sizeOf m v = size) ∧ ∀ a ∈ allAddrs gs, a < m.next

/-! ### Lemmas -/

@[simp] theorem addrs_nil : addrs [] = [] := rfl
@[simp] theorem addrs_array (a : ℕ) (vs : List Val) : addrs (.array a :: vs) = a :: addrs vs := rfl
@[simp] theorem addrs_seq (v : Vec) (vs : List Val) : addrs (.seq v :: vs) = addrs vs := rfl

/-- Values whose arrays are not touched read the same. -/
theorem content_congr {m m' : Mem} {v : Val} (h : ∀ a ∈ addrs [v], m'.heap a = m.heap a) :
    content m' v = content m v ∧ sizeOf m' v = sizeOf m v := by
  cases v with
  | array a => simp [content, sizeOf, h a (by simp)]
  | seq v => simp [content, sizeOf]

theorem mem_addrs {v : Val} {vs : List Val} (hv : v ∈ vs) {a : ℕ} (ha : a ∈ addrs [v]) : a ∈ addrs vs := by
  cases v with
  | array b =>
    simp at ha; subst ha
    exact List.mem_filterMap.mpr ⟨_, hv, rfl⟩
  | seq v => simp at ha

/-- The rest of the loop: only the accumulator changes among the existing arrays. -/
theorem accumulate_some (size : ℕ) (vs : List Val) : ∀ (m : Mem) (s : ℕ), s < m.next → (m.heap s).size = size →
    (∀ v ∈ vs, sizeOf m v = size) → (∀ a ∈ addrs vs, a < m.next) →
    ∃ m', accumulate size m (some s) vs = .ok (m', some s) ∧ m.next ≤ m'.next ∧ (m'.heap s).size = size ∧
      (∀ b < m.next, b ≠ s → m'.heap b = m.heap b) ∧
      (s ∉ addrs vs → (m'.heap s).entry = (m.heap s).entry + (vs.map (content m)).sum) := by
  induction vs with
  | nil => intro m s hs hsz _ _; exact ⟨m, rfl, le_rfl, hsz, fun _ _ _ => rfl, fun _ => by simp⟩
  | cons v vs ih =>
    intro m s hs hsz hv ha
    have hv0 := hv v (by simp)
    cases v with
    | array a =>
      have hlt : a < m.next := ha a (by simp)
      have hsa : (m.heap a).size = size := hv0
      have hsize : ∀ b, ((addInPlace m s a).heap b).size = (m.heap b).size := by
        intro b
        by_cases hb : b = s
        · subst hb; simp [addInPlace]
        · simp [addInPlace, hb]
      obtain ⟨m', h1, h2, h3, h4, h5⟩ := ih (addInPlace m s a) s hs (by rw [hsize]; exact hsz)
        (by
          intro w hw
          have := hv w (by simp [hw])
          cases w with
          | array c => simp only [sizeOf, hsize]; exact this
          | seq w => exact this)
        (fun b hb => ha b (by simp [hb]))
      refine ⟨m', ?_, h2, h3, ?_, ?_⟩
      · simp only [accumulate, load, hsa, ne_eq, not_true, if_false]
        exact h1
      · intro b hb hne
        rw [h4 b hb hne]
        simp [addInPlace, hne]
      · intro hns
        simp only [addrs_array, List.mem_cons, not_or] at hns
        have hc : ∀ w ∈ vs, content (addInPlace m s a) w = content m w := by
          intro w hw
          refine (content_congr fun b hb => ?_).1
          have : b ≠ s := fun h => hns.2 (h ▸ mem_addrs hw hb)
          simp [addInPlace, this]
        rw [h5 hns.2, List.map_congr_left hc]
        simp only [addInPlace, Function.update_self, List.map_cons, List.sum_cons, content]
        abel
    | seq x =>
      have hx : x.size = size := hv0
      set m1 : Mem := { heap := Function.update m.heap m.next x, next := m.next + 1 } with hm1
      have hm1s : m1.heap s = m.heap s := by simp [hm1, (Nat.ne_of_lt hs)]
      have hold : ∀ b < m.next, m1.heap b = m.heap b := fun b hb => by simp [hm1, Nat.ne_of_lt hb]
      set m2 := addInPlace m1 s m.next with hm2
      have hm2o : ∀ b < m.next, b ≠ s → m2.heap b = m.heap b := by
        intro b hb hne
        rw [← hold b hb]
        simp [hm2, addInPlace, hne]
      have hm2s : m2.heap s = ⟨(m.heap s).size, (m.heap s).entry + x.entry⟩ := by
        simp only [hm2, addInPlace, Function.update_self, hm1s]
        simp [hm1]
      have hsz2 : ∀ b < m.next, (m2.heap b).size = (m.heap b).size := by
        intro b hb
        by_cases h : b = s
        · subst h; rw [hm2s]
        · rw [hm2o b hb h]
      have hn2 : m2.next = m.next + 1 := rfl
      obtain ⟨m', h1, h2, h3, h4, h5⟩ := ih m2 s (by omega) (by rw [hsz2 s hs]; exact hsz)
        (by
          intro w hw
          have := hv w (by simp [hw])
          cases w with
          | array c =>
            simp only [sizeOf]
            rw [hsz2 c (ha c (by simpa using mem_addrs hw (by simp)))]
            exact this
          | seq w => exact this)
        (fun b hb => by have := ha b (by simpa using hb); omega)
      refine ⟨m', ?_, by omega, h3, ?_, ?_⟩
      · have hl : ((load m (.seq x)).1.heap (load m (.seq x)).2).size = size := by simpa [load] using hx
        simp only [accumulate, hl, ne_eq, not_true, if_false]
        exact h1
      · intro b hb hne
        rw [h4 b (by omega) hne, hm2o b hb hne]
      · intro hns
        simp only [addrs_seq] at hns
        have hc : ∀ w ∈ vs, content m2 w = content m w := by
          intro w hw
          refine (content_congr fun b hb => ?_).1
          have hb' := mem_addrs hw hb
          exact hm2o b (ha b (by simpa using hb')) fun h => hns (h ▸ hb')
        rw [h5 hns, List.map_congr_left hc, hm2s]
        simp only [List.map_cons, List.sum_cons, content]
        abel

/-- One accumulator. -/
theorem create_spec (size : ℕ) (m : Mem) (vs : List Val) (hv : ∀ v ∈ vs, sizeOf m v = size) (ha : ∀ a ∈ addrs vs, a < m.next) :
    ∃ m' r, createAccumulator size m vs = .ok (m', r) ∧ m.next ≤ m'.next ∧
      (∀ b < m.next, (m'.heap b).size = (m.heap b).size) ∧
      (∀ b < m.next, b ∉ addrs (vs.take 1) → m'.heap b = m.heap b) ∧
      (∀ a ∈ r, a < m'.next ∧ (a < m.next → a ∈ addrs (vs.take 1))) ∧
      (∀ a ∈ addrs (vs.take 1), r = some a) ∧
      ((addrs vs).Nodup → (match r with | some a => (m'.heap a).entry | none => 0) = (vs.map (content m)).sum) := by
  cases vs with
  | nil => exact ⟨m, none, rfl, le_rfl, fun _ _ => rfl, fun _ _ _ => rfl, by simp, by simp, fun _ => by simp⟩
  | cons v vs =>
    have hv0 := hv v (by simp)
    cases v with
    | array a =>
      have hlt : a < m.next := ha a (by simp)
      have hsa : (m.heap a).size = size := hv0
      obtain ⟨m', h1, h2, h3, h4, h5⟩ := accumulate_some size vs m a hlt hsa (fun w hw => hv w (by simp [hw]))
        (fun b hb => ha b (by simp [hb]))
      refine ⟨m', some a, ?_, h2, ?_, ?_, ?_, ?_, ?_⟩
      · simp only [createAccumulator, accumulate, load, hsa, ne_eq, not_true, if_false]
        exact h1
      · intro b hb
        by_cases h : b = a
        · subst h; rw [h3, hsa]
        · rw [h4 b hb h]
      · intro b hb hn
        simp only [List.take_succ_cons, List.take_zero, addrs_array, addrs_nil, List.mem_singleton] at hn
        exact h4 b hb hn
      · intro b hb
        simp only [Option.mem_def, Option.some.injEq] at hb
        subst hb
        exact ⟨by omega, fun _ => by simp⟩
      · intro b hb
        simp at hb
        rw [hb]
      · intro hnd
        simp only [addrs_array, List.nodup_cons] at hnd
        rw [show (match (some a : Option ℕ) with | some a => (m'.heap a).entry | none => 0) = (m'.heap a).entry from rfl, h5 hnd.1]
        simp [content]
    | seq x =>
      have hx : x.size = size := hv0
      set m1 : Mem := { heap := Function.update m.heap m.next x, next := m.next + 1 } with hm1
      have hold : ∀ b < m.next, m1.heap b = m.heap b := fun b hb => by simp [hm1, Nat.ne_of_lt hb]
      have hnew : m1.heap m.next = x := by simp [hm1]
      have hlt : ∀ b ∈ addrs vs, b < m.next := fun b hb => ha b (by simpa using hb)
      obtain ⟨m', h1, h2, h3, h4, h5⟩ := accumulate_some size vs m1 m.next (by simp [hm1]) (by rw [hnew]; exact hx)
        (by
          intro w hw
          rw [(content_congr (m := m) fun b hb => hold b (hlt b (mem_addrs hw hb))).2]
          exact hv w (by simp [hw]))
        (fun b hb => by have := hlt b hb; simp only [hm1]; omega)
      have hn1 : m1.next = m.next + 1 := rfl
      refine ⟨m', some m.next, ?_, by omega, ?_, ?_, ?_, ?_, ?_⟩
      · have hl : ((load m (.seq x)).1.heap (load m (.seq x)).2).size = size := by simpa [load] using hx
        simp only [createAccumulator, accumulate, hl, ne_eq, not_true, if_false]
        exact h1
      · intro b hb
        rw [h4 b (by omega) (by omega), hold b hb]
      · intro b hb _
        rw [h4 b (by omega) (by omega), hold b hb]
      · intro b hb
        simp only [Option.mem_def, Option.some.injEq] at hb
        subst hb
        exact ⟨by omega, fun h => absurd h (lt_irrefl _)⟩
      · intro b hb
        simp at hb
      · intro _
        have hc : ∀ w ∈ vs, content m1 w = content m w := fun w hw =>
          (content_congr fun b hb => hold b (hlt b (mem_addrs hw hb))).1
        rw [show (match (some m.next : Option ℕ) with | some a => (m'.heap a).entry | none => 0) = (m'.heap m.next).entry from rfl,
          h5 (fun h => lt_irrefl _ (hlt _ h)), hnew, List.map_congr_left hc]
        simp [content]

variable {K : Type}

theorem take_sub (vs : List Val) {a : ℕ} (h : a ∈ addrs (vs.take 1)) : a ∈ addrs vs := by
  obtain ⟨v, hv, hva⟩ := List.mem_filterMap.mp h
  exact List.mem_filterMap.mpr ⟨v, List.take_subset _ _ hv, hva⟩

/-- All accumulators, whatever arrays are shared: only first arrays change. -/
theorem accumulators_frame (size : ℕ) (gs : List (K × List Val)) : ∀ m : Mem, Fits size m gs →
    ∃ m' rs, accumulators size m gs = .ok (m', rs) ∧ m.next ≤ m'.next ∧
      (∀ b < m.next, (m'.heap b).size = (m.heap b).size) ∧ ∀ b < m.next, b ∉ firsts gs → m'.heap b = m.heap b := by
  induction gs with
  | nil => intro m _; exact ⟨m, [], rfl, le_rfl, fun _ _ => rfl, fun _ _ _ => rfl⟩
  | cons g gs ih =>
    obtain ⟨k, vs⟩ := g
    intro m hf
    have hmem : ∀ a, a ∈ addrs vs ∨ a ∈ allAddrs gs → a < m.next := by
      intro a h
      exact hf.2 a (by simpa [allAddrs] using h)
    obtain ⟨m1, r, h1, h2, h3, h4, -⟩ := create_spec size m vs (hf.1 (k, vs) (by simp)) (fun a h => hmem a (.inl h))
    have hf1 : Fits size m1 gs := by
      refine ⟨fun g hg v hv => ?_, fun a h => lt_of_lt_of_le (hmem a (.inr h)) h2⟩
      rw [← hf.1 g (by simp [hg]) v hv]
      cases v with
      | array a =>
        refine h3 a (hmem a (.inr ?_))
        exact List.mem_flatMap.mpr ⟨g, hg, mem_addrs hv (by simp)⟩
      | seq x => rfl
    obtain ⟨m2, rs, e1, e2, e3, e4⟩ := ih m1 hf1
    refine ⟨m2, (k, r) :: rs, ?_, by omega, ?_, ?_⟩
    · simp only [accumulators, h1, e1]
    · intro b hb; rw [e3 b (by omega), h3 b hb]
    · intro b hb hn
      simp only [firsts, List.flatMap_cons, List.mem_append, not_or] at hn
      rw [e4 b (by omega) hn.2, h4 b hb hn.1]

/-- What an accumulator holds. -/
def reads (m : Mem) : Option ℕ → ℕ → ℚ
  | some a => (m.heap a).entry
  | none => 0

theorem forall₂_change {α β : Type} {R S : α → β → Prop} {l : List α} {l' : List β} (h : List.Forall₂ R l l')
    (hi : ∀ x, ∀ y ∈ l', R x y → S x y) : List.Forall₂ S l l' := by
  induction h with
  | nil => exact .nil
  | cons h1 _ ih => exact .cons (hi _ _ (by simp) h1) (ih fun x y hy => hi x y (by simp [hy]))

theorem total_selected [DecidableEq K] {m m' : Mem} {rs : List (K × Option ℕ)} {gs : List (K × List Val)}
    (h : List.Forall₂ (fun p g => p.1 = g.1 ∧ reads m' p.2 = (g.2.map (content m)).sum) rs gs) (k : K) :
    ∀ keep, total m' (selected keep rs) k = trueSum m (selected keep gs) k := by
  induction h with
  | nil => intro keep; simp [selected, total, trueSum]
  | @cons p g rs gs h1 _ ih =>
    intro keep
    cases keep with
    | nil => simp [selected, total, trueSum]
    | cons b keep =>
      have hi := ih keep
      cases b with
      | false => simpa [selected] using hi
      | true =>
        have e1 : selected (true :: keep) (p :: rs) = p :: selected keep rs := by simp [selected]
        have e2 : selected (true :: keep) (g :: gs) = g :: selected keep gs := by simp [selected]
        rw [e1, e2]
        unfold total trueSum at hi ⊢
        rw [List.map_cons, List.sum_cons, List.map_cons, List.sum_cons, hi, ← h1.2, h1.1]
        cases p.2 <;> rfl

/-- All accumulators if no array is used twice. -/
theorem accumulators_spec (size : ℕ) (gs : List (K × List Val)) : ∀ m : Mem, Fits size m gs → (allAddrs gs).Nodup →
    ∃ m' rs, accumulators size m gs = .ok (m', rs) ∧ m.next ≤ m'.next ∧
      (∀ b < m.next, (m'.heap b).size = (m.heap b).size) ∧
      (∀ b < m.next, b ∉ firsts gs → m'.heap b = m.heap b) ∧
      (List.Forall₂ (fun p g => p.1 = g.1 ∧ reads m' p.2 = (g.2.map (content m)).sum) rs gs) ∧
      (∀ g ∈ gs, ∀ a ∈ addrs (g.2.take 1), (m'.heap a).entry = (g.2.map (content m)).sum) := by
  induction gs with
  | nil => intro m _ _; exact ⟨m, [], rfl, le_rfl, fun _ _ => rfl, fun _ _ _ => rfl, .nil, by simp⟩
  | cons g gs ih =>
    obtain ⟨k, vs⟩ := g
    intro m hf hnd
    have hmem : ∀ a, a ∈ addrs vs ∨ a ∈ allAddrs gs → a < m.next := by
      intro a h
      exact hf.2 a (by simpa [allAddrs] using h)
    have hnd' : (addrs vs ++ allAddrs gs).Nodup := by simpa [allAddrs] using hnd
    obtain ⟨hnd1, hnd2, hdis⟩ := List.nodup_append.mp hnd'
    obtain ⟨m1, r, h1, h2, h3, h4, h5, h6, h7⟩ := create_spec size m vs (hf.1 (k, vs) (by simp)) (fun a h => hmem a (.inl h))
    have hsame : ∀ a ∈ allAddrs gs, m1.heap a = m.heap a := fun a ha =>
      h4 a (hmem a (.inr ha)) fun hb => hdis a (take_sub vs hb) a ha rfl
    have hin : ∀ g ∈ gs, ∀ v ∈ g.2, content m1 v = content m v ∧ sizeOf m1 v = sizeOf m v := fun g hg v hv =>
      content_congr fun b hb => hsame b (List.mem_flatMap.mpr ⟨g, hg, mem_addrs hv hb⟩)
    have hf1 : Fits size m1 gs := by
      refine ⟨fun g hg v hv => ?_, fun a h => lt_of_lt_of_le (hmem a (.inr h)) h2⟩
      rw [(hin g hg v hv).2]
      exact hf.1 g (by simp [hg]) v hv
    have hsums : ∀ g ∈ gs, (g.2.map (content m1)).sum = (g.2.map (content m)).sum := fun g hg => by
      rw [List.map_congr_left fun v hv => (hin g hg v hv).1]
    obtain ⟨m2, rs, e1, e2, e3, e4, e5, e6⟩ := ih m1 hf1 hnd2
    have hfirst : ∀ b, b ∈ firsts gs → b ∈ allAddrs gs := by
      intro b hb
      obtain ⟨g, hg, hgb⟩ := List.mem_flatMap.mp hb
      exact List.mem_flatMap.mpr ⟨g, hg, take_sub _ hgb⟩
    have hr : ∀ a ∈ r, m2.heap a = m1.heap a := by
      intro a ha
      obtain ⟨ha1, ha2⟩ := h5 a ha
      refine e4 a ha1 fun hb => ?_
      have hb' := hfirst a hb
      exact hdis a (take_sub vs (ha2 (hmem a (.inr hb')))) a hb' rfl
    refine ⟨m2, (k, r) :: rs, ?_, by omega, ?_, ?_, ?_, ?_⟩
    · simp only [accumulators, h1, e1]
    · intro b hb; rw [e3 b (by omega), h3 b hb]
    · intro b hb hn
      simp only [firsts, List.flatMap_cons, List.mem_append, not_or] at hn
      rw [e4 b (by omega) hn.2, h4 b hb hn.1]
    · refine .cons ⟨rfl, ?_⟩ ?_
      · rw [← h7 hnd1]
        cases r with
        | none => rfl
        | some a => simp only [reads, hr a rfl]
      · refine forall₂_change e5 fun p g hg h => ⟨h.1, ?_⟩
        rw [h.2, hsums g hg]
    · intro g hg a ha
      rcases List.mem_cons.mp hg with rfl | hg
      · have hra := h6 a ha
        rw [hr a (by rw [hra]; rfl), ← h7 hnd1, hra]
      · rw [e6 g hg a ha, hsums g hg]

/-! ### Properties -/

/-- **C97.** Whatever arrays are shared: if all values have the size of the parameters, the aggregation goes through, and of the arrays of
the caller only those change that come first among the values of a user in a partition. Lists and tuples never change anything. -/
theorem C97_only_first_arrays_change [DecidableEq K] (size : ℕ) (m : Mem) (keep : List Bool) (gs : List (K × List Val))
    (hf : Fits size m gs) :
    ∃ m' sums, exactSums size m keep gs = .ok (m', sums) ∧ ∀ b < m.next, b ∉ firsts gs → m'.heap b = m.heap b := by
  obtain ⟨m', rs, h1, -, -, h4⟩ := accumulators_frame size gs m hf
  exact ⟨m', total m' (selected keep rs), by simp only [exactSums, h1], h4⟩

/-- **C97.** If no array object occurs twice, every partition has the sum of its values that are kept; but afterwards the first array of
each user in each partition, kept or not, holds the sum of all values of that user there. -/
theorem C97_first_call [DecidableEq K] (size : ℕ) (m : Mem) (keep : List Bool) (gs : List (K × List Val)) (hf : Fits size m gs)
    (hnd : (allAddrs gs).Nodup) :
    ∃ m' sums, exactSums size m keep gs = .ok (m', sums) ∧ (∀ k, sums k = trueSum m (selected keep gs) k) ∧
      (∀ g ∈ gs, ∀ a ∈ addrs (g.2.take 1), (m'.heap a).entry = (g.2.map (content m)).sum) ∧
      ∀ b < m.next, b ∉ firsts gs → m'.heap b = m.heap b := by
  obtain ⟨m', rs, h1, -, -, h4, h5, h6⟩ := accumulators_spec size gs m hf hnd
  exact ⟨m', total m' (selected keep rs), by simp only [exactSums, h1], fun k => total_selected h5 k keep, h6, h4⟩

/-- What the values of one user in one partition add up to when the same data is aggregated again. -/
def again (m : Mem) : List Val → ℕ → ℚ
  | [] => 0
  | .array a :: vs => content m (.array a) + 2 • (vs.map (content m)).sum
  | .seq x :: vs => ((Val.seq x :: vs).map (content m)).sum

theorem again_eq {size : ℕ} {m m' : Mem} {gs : List (K × List Val)} (hf : Fits size m gs) (hnd : (allAddrs gs).Nodup)
    (hfirst : ∀ g ∈ gs, ∀ a ∈ addrs (g.2.take 1), (m'.heap a).entry = (g.2.map (content m)).sum)
    (hrest : ∀ b < m.next, b ∉ firsts gs → m'.heap b = m.heap b) : ∀ g ∈ gs, (g.2.map (content m')).sum = again m g.2 := by
  intro g hg
  have hkey : ∀ v ∈ g.2.tail, content m' v = content m v := by
    intro v hv
    refine (content_congr fun b hb => ?_).1
    have hbg : b ∈ addrs g.2.tail := mem_addrs hv hb
    have hbm : b ∈ allAddrs gs := List.mem_flatMap.mpr ⟨g, hg, mem_addrs (List.mem_of_mem_tail hv) hb⟩
    refine hrest b (hf.2 b hbm) fun hbf => ?_
    obtain ⟨l, r, rfl⟩ := List.append_of_mem hg
    have hsplit : (allAddrs l ++ (addrs g.2 ++ allAddrs r)).Nodup := by simpa [allAddrs] using hnd
    obtain ⟨-, hnd2, hdl⟩ := List.nodup_append.mp hsplit
    obtain ⟨hng, -, hdr⟩ := List.nodup_append.mp hnd2
    have hbg2 : b ∈ addrs g.2 := mem_addrs (List.mem_of_mem_tail hv) hb
    have hsub : ∀ l' : List (K × List Val), b ∈ firsts l' → b ∈ allAddrs l' := by
      intro l' h
      obtain ⟨g', hg', hgb⟩ := List.mem_flatMap.mp h
      exact List.mem_flatMap.mpr ⟨g', hg', take_sub _ hgb⟩
    have hcases : b ∈ firsts l ∨ b ∈ addrs (g.2.take 1) ∨ b ∈ firsts r := by simpa [firsts] using hbf
    rcases hcases with h | h | h
    · exact hdl b (hsub l h) b (by simp [hbg2]) rfl
    · cases hgs : g.2 with
      | nil => rw [hgs] at h; simp at h
      | cons v0 vs =>
        rw [hgs] at h hng hbg
        cases v0 with
        | array a =>
          simp at h
          subst h
          simp only [addrs_array, List.nodup_cons] at hng
          exact hng.1 hbg
        | seq x => simp at h
    · exact hdr b hbg2 b (hsub r h) rfl
  have hfg := hfirst g hg
  cases hgs : g.2 with
  | nil => simp [again]
  | cons v vs =>
    rw [hgs] at hkey hfg
    rw [List.tail_cons] at hkey
    rw [List.map_cons, List.sum_cons, List.map_congr_left hkey]
    cases v with
    | array a =>
      have := hfg a (by simp)
      simp only [content, this, again, List.map_cons, List.sum_cons]
      rw [two_nsmul]
      abel
    | seq x => simp [again, content]

/-- **C97.** So a second aggregation of the same data, of which no array object occurs twice, is wrong: it counts all values of a user in a
partition twice, except the first, if the first is an array. -/
theorem C97_second_call [DecidableEq K] (size : ℕ) (m : Mem) (keep keep' : List Bool) (gs : List (K × List Val)) (hf : Fits size m gs)
    (hnd : (allAddrs gs).Nodup) :
    ∃ m1 sums1 m2 sums2, exactSums size m keep gs = .ok (m1, sums1) ∧ exactSums size m1 keep' gs = .ok (m2, sums2) ∧
      (∀ k, sums1 k = trueSum m (selected keep gs) k) ∧
      ∀ k, sums2 k = ((selected keep' gs).map fun g => if g.1 = k then again m g.2 else 0).sum := by
  obtain ⟨m1, rs, h1, h2, h3, h4, h5, h6⟩ := accumulators_spec size gs m hf hnd
  have hf1 : Fits size m1 gs := by
    refine ⟨fun g hg v hv => ?_, fun a ha => lt_of_lt_of_le (hf.2 a ha) h2⟩
    rw [← hf.1 g hg v hv]
    cases v with
    | array a => exact h3 a (hf.2 a (List.mem_flatMap.mpr ⟨g, hg, mem_addrs hv (by simp)⟩))
    | seq x => rfl
  obtain ⟨m2, rs2, e1, -, -, -, e5, -⟩ := accumulators_spec size gs m1 hf1 hnd
  refine ⟨m1, total m1 (selected keep rs), m2, total m2 (selected keep' rs2), by simp only [exactSums, h1],
    by simp only [exactSums, e1], fun k => total_selected h5 k keep, fun k => ?_⟩
  rw [total_selected e5 k keep']
  unfold trueSum
  have hsel : ∀ g ∈ selected keep' gs, g ∈ gs := by
    intro g hg
    simp only [selected, List.mem_map, List.mem_filter] at hg
    obtain ⟨p, ⟨hp, -⟩, rfl⟩ := hg
    exact (List.of_mem_zip hp).1
  rw [List.map_congr_left fun g hg => by rw [again_eq hf hnd h6 h4 g (hsel g hg)]]

/-! ### Values of another size -/

theorem accumulate_bad (size : ℕ) (vs : List Val) : ∀ (m : Mem) (acc : Option ℕ), (∀ a ∈ addrs vs, a < m.next) →
    (∃ v ∈ vs, sizeOf m v ≠ size) → accumulate size m acc vs = .error .shapeMismatch := by
  induction vs with
  | nil => rintro m acc - ⟨v, hv, -⟩; simp at hv
  | cons v vs ih =>
    rintro m acc ha ⟨w, hw, hbad⟩
    have hl : ((load m v).1.heap (load m v).2).size = sizeOf m v := by
      cases v with
      | array a => rfl
      | seq x => simp [load, sizeOf]
    by_cases hv : sizeOf m v = size
    · have hw' : w ∈ vs := by
        rcases List.mem_cons.mp hw with rfl | h
        · exact absurd hv hbad
        · exact h
      have hvs : ∀ a ∈ addrs vs, a < m.next := by
        intro a h
        refine ha a ?_
        cases v <;> simp [h]
      have hnext : m.next ≤ (load m v).1.next := by cases v <;> simp [load]
      have hold : ∀ b < m.next, (load m v).1.heap b = m.heap b := by
        intro b hb
        cases v with
        | array a => rfl
        | seq x => simp [load, Nat.ne_of_lt hb]
      have hsz : ∀ m1 : Mem, (∀ b < m.next, (m1.heap b).size = (m.heap b).size) → sizeOf m1 w ≠ size := by
        intro m1 h
        cases w with
        | array c => rw [sizeOf, h c (hvs c (mem_addrs hw' (by simp)))]; exact hbad
        | seq x => exact hbad
      cases acc with
      | none =>
        simp only [accumulate, hl, hv, ne_eq, not_true, if_false]
        exact ih _ _ (fun a h => lt_of_lt_of_le (hvs a h) hnext) ⟨w, hw', hsz _ fun b hb => by rw [hold b hb]⟩
      | some s =>
        simp only [accumulate, hl, hv, ne_eq, not_true, if_false]
        refine ih _ _ (fun a h => lt_of_lt_of_le (hvs a h) hnext) ⟨w, hw', hsz _ fun b hb => ?_⟩
        rw [← hold b hb]
        by_cases h : b = s
        · subst h; simp [addInPlace]
        · simp [addInPlace, h]
    · simp only [accumulate, hl, ne_eq, hv, not_false_eq_true, if_true]

/-- **C97.** One value of another size than `vector_size`, and the aggregation raises TypeError. -/
theorem C97_shape_mismatch [DecidableEq K] (size : ℕ) (m : Mem) (keep : List Bool) (gs : List (K × List Val)) (ha : ∀ a ∈ allAddrs gs, a < m.next)
    (hbad : ∃ g ∈ gs, ∃ v ∈ g.2, sizeOf m v ≠ size) : exactSums size m keep gs = .error .shapeMismatch := by
  suffices h : accumulators size m gs = .error .shapeMismatch by simp only [exactSums, h]
  induction gs generalizing m with
  | nil => obtain ⟨g, hg, -⟩ := hbad; simp at hg
  | cons g gs ih =>
    obtain ⟨k, vs⟩ := g
    have hmem : ∀ a, a ∈ addrs vs ∨ a ∈ allAddrs gs → a < m.next := fun a h => ha a (by simpa [allAddrs] using h)
    by_cases hv : ∃ v ∈ vs, sizeOf m v ≠ size
    · simp only [accumulators, createAccumulator, accumulate_bad size vs m none (fun a h => hmem a (.inl h)) hv]
    · push Not at hv
      obtain ⟨m1, r, h1, h2, h3, -⟩ := create_spec size m vs hv (fun a h => hmem a (.inl h))
      obtain ⟨g, hg, v, hgv, hb⟩ := hbad
      have hg' : g ∈ gs := by
        rcases List.mem_cons.mp hg with rfl | h
        · exact absurd (hv v hgv) hb
        · exact h
      have : accumulators size m1 gs = .error .shapeMismatch := by
        refine ih m1 (fun a h => lt_of_lt_of_le (hmem a (.inr h)) h2) ⟨g, hg', v, hgv, ?_⟩
        cases v with
        | array c =>
          rw [sizeOf, h3 c (hmem c (.inr (List.mem_flatMap.mpr ⟨g, hg', mem_addrs hgv (by simp)⟩)))]
          exact hb
        | seq x => exact hb
      simp only [accumulators, h1, this]

/-! ### Shared arrays -/

theorem accumulate_same (size : ℕ) (a : ℕ) (n : ℕ) : ∀ m : Mem, (m.heap a).size = size →
    accumulate size m (some a) (List.replicate n (.array a))
      = .ok ({ m with heap := Function.update m.heap a ⟨size, (2 ^ n : ℚ) • (m.heap a).entry⟩ }, some a) := by
  induction n with
  | zero =>
    intro m h
    simp only [List.replicate_zero, accumulate, pow_zero, one_smul]
    rw [← h, show (⟨(m.heap a).size, (m.heap a).entry⟩ : Vec) = m.heap a from rfl, Function.update_eq_self]
  | succ n ih =>
    intro m h
    simp only [List.replicate_succ, accumulate, load, h, ne_eq, not_true, if_false]
    rw [ih _ (by simpa [addInPlace] using h)]
    have he : (2 ^ n : ℚ) • ((m.heap a).entry + (m.heap a).entry) = (2 ^ (n + 1) : ℚ) • (m.heap a).entry := by
      rw [← two_smul ℚ, smul_smul, pow_succ]
    simp only [addInPlace, Function.update_self, Function.update_idem, he]

theorem create_same (size : ℕ) (a : ℕ) (n : ℕ) (m : Mem) (h : (m.heap a).size = size) :
    createAccumulator size m (List.replicate (n + 1) (.array a))
      = .ok ({ m with heap := Function.update m.heap a ⟨size, (2 ^ n : ℚ) • (m.heap a).entry⟩ }, some a) := by
  simp only [createAccumulator, List.replicate_succ, accumulate, load, h, ne_eq, not_true, if_false]
  exact accumulate_same size a n m h

/-- The values of users who all contribute the same array object: the `i`-th of them in partition `(L[i]).1`, `(L[i]).2 + 1` times. -/
def sharing (a : ℕ) (L : List (K × ℕ)) : List (K × List Val) := L.map fun p => (p.1, List.replicate (p.2 + 1) (.array a))

theorem accumulators_sharing (size a : ℕ) (L : List (K × ℕ)) : ∀ m : Mem, (m.heap a).size = size →
    ∃ m', accumulators size m (sharing a L) = .ok (m', L.map fun p => (p.1, some a)) ∧
      (m'.heap a).entry = (2 ^ (L.map Prod.snd).sum : ℚ) • (m.heap a).entry := by
  induction L with
  | nil => intro m _; exact ⟨m, rfl, by simp⟩
  | cons p L ih =>
    intro m h
    obtain ⟨m', h1, h2⟩ := ih { m with heap := Function.update m.heap a ⟨size, (2 ^ p.2 : ℚ) • (m.heap a).entry⟩ } (by simp)
    refine ⟨m', ?_, ?_⟩
    · simp only [sharing, List.map_cons, accumulators, create_same size a p.2 m h]
      unfold sharing at h1
      rw [h1]
    · rw [h2]
      simp only [Function.update_self, smul_smul, List.map_cons, List.sum_cons]
      rw [← pow_add, add_comm]

theorem selected_map {α β : Type} (f : α → β) (keep : List Bool) (l : List α) : selected keep (l.map f) = (selected keep l).map f := by
  induction l generalizing keep with
  | nil => simp [selected]
  | cons x l ih =>
    cases keep with
    | nil => simp [selected]
    | cons b keep =>
      have := ih keep
      cases b <;> simpa [selected] using this

/-- **C97.** If users share one array object, every partition gets, per user in it, the array times two to the number of repetitions of all
users in all partitions, instead of once per value. That includes the repetitions in pairs that are not kept. -/
theorem C97_shared_array [DecidableEq K] (size a : ℕ) (m : Mem) (keep : List Bool) (h : (m.heap a).size = size) (L : List (K × ℕ)) :
    ∃ m' sums, exactSums size m keep (sharing a L) = .ok (m', sums) ∧
      (∀ k, sums k = (((selected keep L).countP fun p => p.1 = k : ℕ) * 2 ^ (L.map Prod.snd).sum : ℚ) • (m.heap a).entry) ∧
      ∀ k, trueSum m (selected keep (sharing a L)) k
        = ((selected keep L).map fun p => if p.1 = k then (p.2 : ℚ) + 1 else 0).sum • (m.heap a).entry := by
  obtain ⟨m', h1, h2⟩ := accumulators_sharing size a L m h
  refine ⟨m', total m' (selected keep (L.map fun p => (p.1, some a))), by simp only [exactSums, h1], fun k => ?_, fun k => ?_⟩
  · rw [mul_smul, ← h2, selected_map]
    unfold total
    generalize selected keep L = L'
    clear h1 h2
    induction L' with
    | nil => simp
    | cons p L ih =>
      rw [List.map_cons, List.map_cons, List.sum_cons, ih, List.countP_cons]
      by_cases hk : p.1 = k
      · simp only [hk, if_true, decide_true]
        push_cast
        rw [add_smul, one_smul, add_comm]
      · simp [hk]
  · unfold trueSum sharing
    rw [selected_map]
    generalize selected keep L = L'
    clear h1 h2
    induction L' with
    | nil => simp
    | cons p L ih =>
      rw [List.map_cons, List.map_cons, List.sum_cons, ih, List.map_cons, List.sum_cons, add_smul]
      congr 1
      by_cases hk : p.1 = k
      · simp only [hk, if_true, List.map_replicate, List.sum_replicate, content]
        funext i
        simp only [Pi.smul_apply, nsmul_eq_mul, smul_eq_mul]
        push_cast
        rfl
      · simp [hk]

/-- **C97.** So one user who has a shared array twice in one partition doubles the vectors of all other partitions, however many, even if
the user's values there are dropped by cross-partition bounding (`b = false`): bounding the number of partitions of a user does not
bound how many vectors the user changes. -/
theorem C97_one_user_changes_all_partitions [DecidableEq K] (size a : ℕ) (m : Mem) (h : (m.heap a).size = size) (ks : List K) (k0 : K)
    (keep : List Bool) (b : Bool) :
    ∃ m1 without m2 withUser,
      exactSums size m keep (ks.map fun k => (k, [Val.array a])) = .ok (m1, without) ∧
      exactSums size m (b :: keep) ((k0, [Val.array a, Val.array a]) :: ks.map fun k => (k, [Val.array a])) = .ok (m2, withUser) ∧
      ∀ k, k ≠ k0 → without k = ((selected keep ks).count k : ℚ) • (m.heap a).entry ∧ withUser k = 2 • without k := by
  have e1 : (ks.map fun k => (k, [Val.array a])) = sharing a (ks.map fun k => (k, 0)) := by simp [sharing]
  have e2 : ((k0, [Val.array a, Val.array a]) :: ks.map fun k => (k, [Val.array a])) = sharing a ((k0, 1) :: ks.map fun k => (k, 0)) := by
    simp [sharing, List.replicate]
  obtain ⟨m1, s1, h1, h2, -⟩ := C97_shared_array size a m keep h (ks.map fun k => (k, 0))
  obtain ⟨m2, s2, g1, g2, -⟩ := C97_shared_array size a m (b :: keep) h ((k0, 1) :: ks.map fun k => (k, 0))
  refine ⟨m1, s1, m2, s2, by rw [e1]; exact h1, by rw [e2]; exact g1, fun k hk => ?_⟩
  have hz : ((ks.map fun k => (k, 0)).map Prod.snd).sum = 0 := by
    rw [List.sum_eq_zero]
    intro x hx
    simp only [List.map_map, List.mem_map, Function.comp] at hx
    obtain ⟨_, -, rfl⟩ := hx
    rfl
  have hc : (selected keep (ks.map fun k => (k, 0))).countP (fun p => decide (p.1 = k)) = (selected keep ks).count k := by
    rw [selected_map, List.countP_map, List.count_eq_countP]
    refine List.countP_congr fun x _ => ?_
    simp
  have hc' : (selected (b :: keep) ((k0, 1) :: ks.map fun k => (k, 0))).countP (fun p => decide (p.1 = k))
      = (selected keep ks).count k := by
    rw [← hc]
    cases b <;> simp [selected, Ne.symm hk]
  have hw : s1 k = ((selected keep ks).count k : ℚ) • (m.heap a).entry := by rw [h2 k, hz, hc]; simp
  refine ⟨hw, ?_⟩
  rw [g2 k, hw, hc', List.map_cons, List.sum_cons, hz]
  rw [two_nsmul, ← add_smul]
  congr 1
  norm_num
  ring

/-! ### Examples -/

/-- Arrays `[1, 0]`, `[0, 1]` and `[1, 1]` at the addresses 0, 1 and 2. -/
def exampleMem : Mem :=
  { heap := fun a => ⟨2, fun i => if a = 0 then (if i = 0 then 1 else 0) else if a = 1 then (if i = 1 then 1 else 0) else 1⟩, next := 3 }

/-- User 1 with two arrays in partition "x", user 2 with an array and a list in partition "y". -/
def exampleGroups : List (String × List Val) :=
  [("x", [.array 0, .array 1]), ("y", [.seq ⟨2, fun _ => 5⟩, .array 2])]

theorem exampleFits : Fits 2 exampleMem exampleGroups := by
  constructor
  · intro g hg v hv
    simp only [exampleGroups, List.mem_cons, List.not_mem_nil, or_false] at hg
    rcases hg with rfl | rfl <;> simp only [List.mem_cons, List.not_mem_nil, or_false] at hv <;> rcases hv with rfl | rfl <;> rfl
  · decide

/-- The second call has `[1, 2]` for "x" instead of `[1, 1]`. -/
example : ∃ m1 sums1 m2 sums2, exactSums 2 exampleMem [true, true] exampleGroups = .ok (m1, sums1) ∧
    exactSums 2 m1 [true, true] exampleGroups = .ok (m2, sums2) ∧ sums1 "x" 0 = 1 ∧ sums1 "x" 1 = 1 ∧ sums2 "x" 0 = 1 ∧
    sums2 "x" 1 = 2 ∧ sums2 "y" 0 = sums1 "y" 0 := by
  obtain ⟨m1, s1, m2, s2, h1, h2, h3, h4⟩ :=
    C97_second_call 2 exampleMem [true, true] [true, true] exampleGroups exampleFits (by decide)
  refine ⟨m1, s1, m2, s2, h1, h2, ?_⟩
  rw [h3, h4, h3, h4]
  decide +kernel

example : ∃ m' sums, exactSums 2 exampleMem [true, false] exampleGroups = .ok (m', sums) ∧
    ∀ b < exampleMem.next, b ∉ firsts exampleGroups → m'.heap b = exampleMem.heap b :=
  C97_only_first_arrays_change 2 exampleMem [true, false] exampleGroups exampleFits

/-- If "y" is dropped, only "x" has a vector. -/
example := C97_first_call 2 exampleMem [true, false] exampleGroups exampleFits (by decide)

/-- With `vector_size=3` these values are rejected. -/
example : exactSums 3 exampleMem [true, true] exampleGroups = .error .shapeMismatch :=
  C97_shape_mismatch 3 exampleMem [true, true] exampleGroups (by decide) ⟨_, List.mem_cons_self, _, List.mem_cons_self, by decide⟩

/-- Three values, one object: four times the array instead of three times. -/
example : ∃ m' sums, exactSums 2 exampleMem [true] (sharing 0 [("x", 2)]) = .ok (m', sums) ∧ sums "x" 0 = 4 ∧
    trueSum exampleMem (selected [true] (sharing 0 [("x", 2)])) "x" 0 = 3 := by
  obtain ⟨m', s, h1, h2, h3⟩ := C97_shared_array 2 0 exampleMem [true] rfl [("x", 2)]
  refine ⟨m', s, h1, ?_, ?_⟩
  · rw [h2]; decide +kernel
  · rw [h3]; decide +kernel

/-- A user of "z" doubles "x" and "y". -/
example := C97_one_user_changes_all_partitions 2 0 exampleMem rfl ["x", "y"] "z" [true, true] false

end PDP.Engine.VectorAlias
