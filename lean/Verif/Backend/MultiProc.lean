import Verif.Lib.Ops
import Verif.Bounding.Props

/-!
# The multi-process local backend (`pipeline_backend.py:600-823`)

Worker processes take rows of the input and call the manager process.  Each call to the manager (`__getitem__`,
`__setitem__` of the shared dictionary, `append` of a shared list) is one atomic step; steps of different workers
interleave in any order.  `pool.map` splits the input into chunks; here every worker has any list of rows, so
that chunk sizes and the assignment of chunks are covered.
-/

set_option linter.unusedVariables false
set_option linter.unusedSectionVars false

namespace PDP.Backend

variable {K V : Type} [DecidableEq K]

/-! ### Counting -/

/-- A worker that counts: the rows still to be counted and the value read by a started `results_dict_[key] += 1`. -/
structure Counter (K : Type) where
  todo : List K
  reg : Option ℕ

/-- The workers and the shared dictionary. -/
structure CountState (K : Type) where
  procs : List (Counter K)
  dict : K → ℕ

/-- One step of worker `i`: `pipeline_backend.py:687-689` `results_dict_[key] += 1`, which is `__getitem__` followed
by `__setitem__`. -/
def CountState.step (s : CountState K) (i : ℕ) : CountState K :=
  match s.procs[i]? with
  | none => s
  | some p =>
    match p.todo, p.reg with
    | [], _ => s
    | k :: rest, none => { s with procs := s.procs.set i ⟨k :: rest, some (s.dict k)⟩ }
    | k :: rest, some c =>
      { procs := s.procs.set i ⟨rest, none⟩, dict := fun j => if j = k then c + 1 else s.dict j }

/-- `results_dict.update({k: 0 for k in keys})` and the start of the pool (`pipeline_backend.py:698-702`). -/
def CountState.start (work : List (List K)) : CountState K := ⟨work.map fun w => ⟨w, none⟩, fun _ => 0⟩

def CountState.run (s : CountState K) (schedule : List ℕ) : CountState K := schedule.foldl CountState.step s

/-- `pool.map` returned: all rows were processed. -/
def CountState.finished (s : CountState K) : Prop := ∀ p ∈ s.procs, p.todo = []

/-- `pipeline_backend.py:704-709` `_trigger_iterations`: `firstPass` are the elements seen by
`set(self.job_inputs)`; the workers see the elements of the second iteration over `job_inputs`. -/
def multiProcCount (firstPass : List K) (work : List (List K)) (schedule : List ℕ) : List (K × ℕ) :=
  firstPass.dedup.map fun k => (k, ((CountState.start work).run schedule).dict k)

/-! ### Grouping -/

/-- Workers that group and the shared dictionary of shared lists. -/
structure GroupState (K V : Type) where
  procs : List (List (K × V))
  dict : K → List V

/-- One step of worker `i`: `results_dict_[key].append(val)` (`pipeline_backend.py:653-656`), where `append` is one
call to the manager. -/
def GroupState.step (s : GroupState K V) (i : ℕ) : GroupState K V :=
  match s.procs[i]? with
  | none => s
  | some [] => s
  | some (e :: rest) =>
    { procs := s.procs.set i rest, dict := fun j => if j = e.1 then s.dict j ++ [e.2] else s.dict j }

def GroupState.start (work : List (List (K × V))) : GroupState K V := ⟨work, fun _ => []⟩

def GroupState.run (s : GroupState K V) (schedule : List ℕ) : GroupState K V := schedule.foldl GroupState.step s

def GroupState.finished (s : GroupState K V) : Prop := ∀ p ∈ s.procs, p = []

/-- `pipeline_backend.py:671-676` `_trigger_iterations`. -/
def multiProcGroup (firstPass : List (K × V)) (work : List (List (K × V))) (schedule : List ℕ) : List (K × List V) :=
  ((firstPass.map Prod.fst).dedup).map fun k => (k, ((GroupState.start work).run schedule).dict k)

/-- `pipeline_backend.py:775-790` `sample_fixed_per_key` on the groups; `sample` is `random.sample`. -/
def multiProcSample (sample : K → List V → ℕ → List V) (groups : List (K × List V)) (n : ℕ) : List (K × List V) :=
  groups.map fun e => (e.1, if e.2.length > n then sample e.1 e.2 n else e.2)

/-! ### Lemmas on counting -/

/-- Rows with key `k` not yet counted. -/
def CountState.remaining (s : CountState K) (k : K) : ℕ := (s.procs.flatMap Counter.todo).count k

theorem count_set (procs : List (Counter K)) (i : ℕ) (p q : Counter K) (h : procs[i]? = some p) (k : K) :
    ((procs.set i q).flatMap Counter.todo).count k + p.todo.count k
      = (procs.flatMap Counter.todo).count k + q.todo.count k := by
  induction procs generalizing i with
  | nil => simp at h
  | cons x procs ih =>
    cases i with
    | zero =>
      simp only [List.getElem?_cons_zero, Option.some.injEq] at h
      subst h
      simp only [List.set_cons_zero, List.flatMap_cons, List.count_append]
      omega
    | succ i =>
      simp only [List.getElem?_cons_succ] at h
      have := ih i h
      simp only [List.set_cons_succ, List.flatMap_cons, List.count_append]
      omega

/-- The three cases of a step. -/
theorem step_cases (s : CountState K) (i : ℕ) :
    s.step i = s ∨
    (∃ p k rest, s.procs[i]? = some p ∧ p.todo = k :: rest ∧ p.reg = none ∧
      s.step i = { s with procs := s.procs.set i ⟨k :: rest, some (s.dict k)⟩ }) ∨
    (∃ p k rest c, s.procs[i]? = some p ∧ p.todo = k :: rest ∧ p.reg = some c ∧
      s.step i = { procs := s.procs.set i ⟨rest, none⟩, dict := fun j => if j = k then c + 1 else s.dict j }) := by
  unfold CountState.step
  cases hp : s.procs[i]? with
  | none => left; rfl
  | some p =>
    obtain ⟨todo, reg⟩ := p
    cases todo with
    | nil => left; rfl
    | cons k rest =>
      cases reg with
      | none => right; left; exact ⟨_, k, rest, rfl, rfl, rfl, rfl⟩
      | some c => right; right; exact ⟨_, k, rest, c, rfl, rfl, rfl, rfl⟩

theorem remaining_read {s : CountState K} {i : ℕ} {p : Counter K} {k : K} {rest : List K} {c : Option ℕ}
    (hp : s.procs[i]? = some p) (ht : p.todo = k :: rest) (j : K) :
    ((s.procs.set i ⟨k :: rest, c⟩).flatMap Counter.todo).count j = s.remaining j := by
  have := count_set s.procs i p ⟨k :: rest, c⟩ hp j
  rw [ht] at this
  unfold CountState.remaining
  dsimp only at this
  omega

theorem remaining_write {s : CountState K} {i : ℕ} {p : Counter K} {k : K} {rest : List K} {c : Option ℕ}
    (hp : s.procs[i]? = some p) (ht : p.todo = k :: rest) (j : K) :
    ((s.procs.set i ⟨rest, c⟩).flatMap Counter.todo).count j + (if j = k then 1 else 0) = s.remaining j := by
  have := count_set s.procs i p ⟨rest, c⟩ hp j
  rw [ht, List.count_cons] at this
  unfold CountState.remaining
  dsimp only at this
  by_cases h : j = k
  · subst h; simp at this ⊢; omega
  · have h' : ¬ k = j := fun e => h e.symm
    simp [h, h'] at this ⊢; omega

/-- Invariant of all interleavings: no value in the dictionary or in a register exceeds the number of finished
increments, and a key with a finished increment has a positive count. -/
structure Safe (total : K → ℕ) (s : CountState K) : Prop where
  dict : ∀ k, s.dict k + s.remaining k ≤ total k
  regs : ∀ p ∈ s.procs, ∀ k rest c, p.todo = k :: rest → p.reg = some c → c + s.remaining k ≤ total k
  pos : ∀ k, s.remaining k < total k → 1 ≤ s.dict k

theorem Safe.step {total : K → ℕ} {s : CountState K} (h : Safe total s) (i : ℕ) : Safe total (s.step i) := by
  rcases step_cases s i with he | ⟨p, k, rest, hp, ht, hr, he⟩ | ⟨p, k, rest, c, hp, ht, hr, he⟩
  · rw [he]; exact h
  · rw [he]
    have hrem : ∀ j, CountState.remaining { s with procs := s.procs.set i ⟨k :: rest, some (s.dict k)⟩ } j = s.remaining j :=
      fun j => remaining_read hp ht j
    refine ⟨fun j => by rw [hrem]; exact h.dict j, ?_, fun j hj => by rw [hrem] at hj; exact h.pos j hj⟩
    intro q hq j rest' c hqt hqr
    rw [hrem]
    rcases List.mem_or_eq_of_mem_set hq with hq | rfl
    · exact h.regs q hq j rest' c hqt hqr
    · simp only [List.cons.injEq, Option.some.injEq] at hqt hqr
      obtain ⟨rfl, -⟩ := hqt
      subst hqr
      exact h.dict _
  · rw [he]
    have hrem : ∀ j, CountState.remaining { procs := s.procs.set i ⟨rest, none⟩, dict := fun j => if j = k then c + 1 else s.dict j } j
        + (if j = k then 1 else 0) = s.remaining j :=
      fun j => remaining_write hp ht j
    have hpm : p ∈ s.procs := List.mem_of_getElem? hp
    refine ⟨fun j => ?_, ?_, fun j hj => ?_⟩
    · have h1 := hrem j
      dsimp only
      by_cases hjk : j = k
      · subst hjk
        have := h.regs p hpm _ _ _ ht hr
        simp at h1 ⊢
        omega
      · have := h.dict j
        simp [hjk] at h1 ⊢
        omega
    · intro q hq j rest' c' hqt hqr
      have h1 := hrem j
      rcases List.mem_or_eq_of_mem_set hq with hq | rfl
      · have := h.regs q hq j rest' c' hqt hqr
        omega
      · simp at hqr
    · have h1 := hrem j
      dsimp only
      by_cases hjk : j = k
      · simp [hjk]
      · simp only [hjk, if_false] at h1 ⊢
        exact h.pos j (by omega)

theorem run_invariant {P : CountState K → Prop} (hstep : ∀ s i, P s → P (s.step i)) (schedule : List ℕ) (s : CountState K)
    (h : P s) : P (s.run schedule) := by
  induction schedule generalizing s with
  | nil => exact h
  | cons i schedule ih => exact ih _ (hstep s i h)

theorem remaining_start (work : List (List K)) (k : K) : (CountState.start work).remaining k = work.flatten.count k := by
  unfold CountState.start CountState.remaining
  rw [List.flatMap_map]
  simp only [List.flatMap_id']

theorem remaining_finished {s : CountState K} (h : s.finished) (k : K) : s.remaining k = 0 := by
  unfold CountState.remaining
  rw [List.count_eq_zero]
  intro hm
  obtain ⟨p, hp, hk⟩ := List.mem_flatMap.mp hm
  rw [h p hp] at hk
  simp at hk

theorem safe_start (work : List (List K)) : Safe (fun k => work.flatten.count k) (CountState.start work) := by
  refine ⟨fun k => ?_, ?_, fun k hk => ?_⟩
  · rw [remaining_start]; simp [CountState.start]
  · intro p hp k rest c hpt hpr
    simp only [CountState.start, List.mem_map] at hp
    obtain ⟨w, -, rfl⟩ := hp
    simp at hpr
  · rw [remaining_start] at hk; omega

/-! ### C40: counting -/

/-- C40: whatever the interleaving of any number of workers, the count of a key is at most the sequential count, and
positive for a key that occurs. -/
theorem C40_count_never_too_large (col : List K) (work : List (List K)) (hw : work.flatten.Perm col) (schedule : List ℕ)
    (hf : ((CountState.start work).run schedule).finished) :
    ((multiProcCount col work schedule).map Prod.fst).Nodup ∧
    (∀ k, k ∈ (multiProcCount col work schedule).map Prod.fst ↔ k ∈ col) ∧
    ∀ k n, (k, n) ∈ multiProcCount col work schedule → 1 ≤ n ∧ n ≤ col.count k := by
  have hk : (multiProcCount col work schedule).map Prod.fst = col.dedup := by
    simp [multiProcCount, Function.comp_def]
  refine ⟨by rw [hk]; exact List.nodup_dedup _, fun k => by rw [hk, List.mem_dedup], fun k n hm => ?_⟩
  have hs := run_invariant (P := Safe fun k => work.flatten.count k) (fun s i h => Safe.step h i) schedule _ (safe_start work)
  obtain ⟨k', hk', he⟩ := List.mem_map.mp hm
  simp only [Prod.mk.injEq] at he
  obtain ⟨rfl, rfl⟩ := he
  have hcnt := hw.count_eq k'
  have h0 := remaining_finished hf k'
  have h1 := hs.dict k'
  have hpos : 0 < col.count k' := List.count_pos_iff.mpr (List.mem_dedup.mp hk')
  refine ⟨hs.pos k' ?_, ?_⟩
  · omega
  · omega

/-- The owner of each key is unique among the workers that still have it to count, the dictionary holds the number of
finished increments, and a started increment has read the current value. -/
structure Exact (total : K → ℕ) (s : CountState K) : Prop where
  owner : ∀ (i j : ℕ) (p q : Counter K) (k : K), s.procs[i]? = some p → s.procs[j]? = some q → k ∈ p.todo → k ∈ q.todo → i = j
  dict : ∀ k, s.dict k + s.remaining k = total k
  regs : ∀ (i : ℕ) (p : Counter K) (k : K) rest c, s.procs[i]? = some p → p.todo = k :: rest → p.reg = some c → c = s.dict k

theorem getElem?_set_cases {A : Type} {l : List A} {i j : ℕ} {a b : A} (h : (l.set i a)[j]? = some b) :
    (i = j ∧ b = a) ∨ (i ≠ j ∧ l[j]? = some b) := by
  rw [List.getElem?_set] at h
  split at h
  · rename_i hij
    split at h
    · left; exact ⟨hij, (Option.some.inj h).symm⟩
    · cases h
  · rename_i hij; right; exact ⟨hij, h⟩

theorem Exact.step {total : K → ℕ} {s : CountState K} (h : Exact total s) (i : ℕ) : Exact total (s.step i) := by
  rcases step_cases s i with he | ⟨p, k, rest, hp, ht, hr, he⟩ | ⟨p, k, rest, c, hp, ht, hr, he⟩
  · rw [he]; exact h
  · rw [he]
    have hrem : ∀ j, CountState.remaining { s with procs := s.procs.set i ⟨k :: rest, some (s.dict k)⟩ } j = s.remaining j :=
      fun j => remaining_read hp ht j
    refine ⟨?_, fun j => by rw [hrem]; exact h.dict j, ?_⟩
    · intro a b q r x ha hb hx hy
      have hget : ∀ (a : ℕ) (q : Counter K), (s.procs.set i ⟨k :: rest, some (s.dict k)⟩)[a]? = some q → ∃ q', s.procs[a]? = some q' ∧ q'.todo = q.todo := by
        intro a q hq
        rcases getElem?_set_cases hq with ⟨rfl, rfl⟩ | ⟨-, hq⟩
        · exact ⟨p, hp, ht⟩
        · exact ⟨q, hq, rfl⟩
      obtain ⟨q', h1, h2⟩ := hget a q ha
      obtain ⟨r', h3, h4⟩ := hget b r hb
      exact h.owner a b q' r' x h1 h3 (h2 ▸ hx) (h4 ▸ hy)
    · intro a q x rest' c' hq hqt hqr
      rcases getElem?_set_cases hq with ⟨rfl, rfl⟩ | ⟨-, hq⟩
      · simp only [List.cons.injEq, Option.some.injEq] at hqt hqr
        rw [← hqr, hqt.1]
      · exact h.regs a q x rest' c' hq hqt hqr
  · rw [he]
    have hrem : ∀ j, CountState.remaining { procs := s.procs.set i ⟨rest, none⟩, dict := fun j => if j = k then c + 1 else s.dict j } j
        + (if j = k then 1 else 0) = s.remaining j :=
      fun j => remaining_write hp ht j
    have hc := h.regs i p k rest c hp ht hr
    refine ⟨?_, fun j => ?_, ?_⟩
    · intro a b q r x ha hb hx hy
      have hget : ∀ (a : ℕ) (q : Counter K), (s.procs.set i ⟨rest, none⟩)[a]? = some q → ∃ q', s.procs[a]? = some q' ∧ q.todo ⊆ q'.todo := by
        intro a q hq
        rcases getElem?_set_cases hq with ⟨rfl, rfl⟩ | ⟨-, hq⟩
        · exact ⟨p, hp, by rw [ht]; exact List.subset_cons_self _ _⟩
        · exact ⟨q, hq, List.Subset.refl _⟩
      obtain ⟨q', h1, h2⟩ := hget a q ha
      obtain ⟨r', h3, h4⟩ := hget b r hb
      exact h.owner a b q' r' x h1 h3 (h2 hx) (h4 hy)
    · have h1 := hrem j
      have h2 := h.dict j
      dsimp only
      by_cases hjk : j = k
      · subst hjk
        simp at h1 ⊢
        omega
      · simp [hjk] at h1 ⊢
        omega
    · intro a q x rest' c' hq hqt hqr
      dsimp only
      rcases getElem?_set_cases hq with ⟨rfl, rfl⟩ | ⟨hne, hq⟩
      · simp at hqr
      · have hxk : x ≠ k := fun hxk =>
          hne (h.owner i a p q x hp (by assumption) (by simp [ht, hxk]) (by simp [hqt]))
        rw [if_neg hxk]
        exact h.regs a q x rest' c' hq hqt hqr

/-- C40: if the rows of every key are all processed by one worker (in particular with a single worker), the counts are
those of the sequential count for every interleaving. -/
theorem C40_count_exact_without_sharing (col : List K) (work : List (List K)) (hw : work.flatten.Perm col)
    (hown : ∀ (i j : ℕ) (p q : List K) k, work[i]? = some p → work[j]? = some q → k ∈ p → k ∈ q → i = j)
    (schedule : List ℕ) (hf : ((CountState.start work).run schedule).finished) :
    IsCount col (multiProcCount col work schedule) := by
  have hk : (multiProcCount col work schedule).map Prod.fst = col.dedup := by
    simp [multiProcCount, Function.comp_def]
  refine ⟨by rw [hk]; exact List.nodup_dedup _, fun k => by rw [hk, List.mem_dedup], fun e he => ?_⟩
  have hstart : Exact (fun k => work.flatten.count k) (CountState.start work) := by
    refine ⟨?_, fun k => by rw [remaining_start]; simp [CountState.start], ?_⟩
    · intro i j p q k hp hq hkp hkq
      simp only [CountState.start, List.getElem?_map, Option.map_eq_some_iff] at hp hq
      obtain ⟨w1, h1, rfl⟩ := hp
      obtain ⟨w2, h2, rfl⟩ := hq
      exact hown i j w1 w2 k h1 h2 hkp hkq
    · intro i p k rest c hp hpt hpr
      simp only [CountState.start, List.getElem?_map, Option.map_eq_some_iff] at hp
      obtain ⟨w1, h1, rfl⟩ := hp
      simp at hpr
  have hs := run_invariant (P := Exact fun k => work.flatten.count k) (fun s i h => Exact.step h i) schedule _ hstart
  obtain ⟨k, -, rfl⟩ := List.mem_map.mp he
  have h1 := hs.dict k
  have h2 := remaining_finished hf k
  have h3 := hw.count_eq k
  dsimp only at h1 ⊢
  omega

/-! ### C40: lost updates -/

theorem run_append (s : CountState K) (a b : List ℕ) : s.run (a ++ b) = (s.run a).run b := by
  unfold CountState.run; rw [List.foldl_append]

theorem getElem?_mid {A : Type} (m : ℕ) (a x : A) (r : List A) : (List.replicate m a ++ x :: r)[m]? = some x := by
  rw [List.getElem?_append_right (by simp)]; simp

theorem set_mid {A : Type} (m : ℕ) (a x y : A) (r : List A) :
    (List.replicate m a ++ x :: r).set m y = List.replicate m a ++ y :: r := by
  rw [List.set_append_right _ _ (by simp)]; simp

theorem reads (k : K) (m r : ℕ) :
    (CountState.start (List.replicate (m + r) [k])).run (List.range m)
      = ⟨List.replicate m ⟨[k], some 0⟩ ++ List.replicate r ⟨[k], none⟩, fun _ => 0⟩ := by
  induction m generalizing r with
  | zero => simp [CountState.start, CountState.run]
  | succ m ih =>
    rw [show m + 1 + r = m + (r + 1) by omega, List.range_succ, run_append, ih (r + 1)]
    unfold CountState.run
    rw [List.foldl_cons, List.foldl_nil]
    unfold CountState.step
    rw [List.replicate_succ]
    dsimp only
    rw [getElem?_mid]
    dsimp only
    rw [set_mid, List.replicate_succ', List.append_assoc]
    rfl

theorem writes (k : K) (m r : ℕ) :
    (CountState.run ⟨List.replicate (m + r) ⟨[k], some 0⟩, fun _ => 0⟩ (List.range m))
      = ⟨List.replicate m ⟨[], none⟩ ++ List.replicate r ⟨[k], some 0⟩,
          if m = 0 then fun _ => 0 else fun j => if j = k then 1 else 0⟩ := by
  induction m generalizing r with
  | zero => simp [CountState.run]
  | succ m ih =>
    rw [show m + 1 + r = m + (r + 1) by omega, List.range_succ, run_append, ih (r + 1)]
    unfold CountState.run
    rw [List.foldl_cons, List.foldl_nil]
    unfold CountState.step
    rw [List.replicate_succ]
    dsimp only
    rw [getElem?_mid]
    dsimp only
    rw [set_mid, List.replicate_succ', List.append_assoc]
    congr 1
    funext j
    by_cases hj : j = k
    · simp [hj]
    · by_cases hm : m = 0 <;> simp [hj, hm]

/-- C40 (defect): with one row of a key for each of `n ≥ 1` workers there is an interleaving in which the final count
is 1, so `n - 1` updates are lost. -/
theorem C40_count_loses_updates (k : K) (n : ℕ) (hn : 1 ≤ n) :
    ∃ schedule, ((CountState.start (List.replicate n [k])).run schedule).finished ∧
      multiProcCount (List.replicate n k) (List.replicate n [k]) schedule = [(k, 1)] ∧
      (List.replicate n k).count k = n := by
  refine ⟨List.range n ++ List.range n, ?_, ?_, by simp⟩
  · have h1 := reads k n 0
    have h2 := writes k n 0
    simp only [Nat.add_zero, List.replicate_zero, List.append_nil] at h1 h2
    rw [run_append, h1, h2]
    intro p hp
    rw [List.eq_of_mem_replicate hp]
  · have h1 := reads k n 0
    have h2 := writes k n 0
    simp only [Nat.add_zero, List.replicate_zero, List.append_nil] at h1 h2
    unfold multiProcCount
    rw [run_append, h1, h2, if_neg (by omega)]
    have : (List.replicate n k).dedup = [k] := by
      cases n with
      | zero => omega
      | succ n => exact List.replicate_dedup (by omega)
    rw [this]
    simp

/-- C40 (defect): when the input is a one-shot iterator, the workers see no rows and every count is 0. -/
theorem C40_count_of_generator (col : List K) (work : List (List K)) (hw : work.flatten = []) (schedule : List ℕ) :
    multiProcCount col work schedule = col.dedup.map fun k => (k, 0) := by
  have hs := run_invariant (P := Safe fun k => work.flatten.count k) (fun s i h => Safe.step h i) schedule _ (safe_start work)
  unfold multiProcCount
  apply List.map_congr_left
  intro k _
  have := hs.dict k
  rw [hw] at this
  simp only [List.count_nil] at this
  rw [Prod.mk.injEq]
  exact ⟨rfl, by omega⟩

/-! ### C40: grouping -/

def GroupState.remaining (s : GroupState K V) (k : K) : List V := valuesOf k s.procs.flatten

theorem flatten_set {A : Type} (procs : List (List A)) (i : ℕ) (e : A) (rest : List A) (h : procs[i]? = some (e :: rest)) :
    (e :: (procs.set i rest).flatten).Perm procs.flatten := by
  induction procs generalizing i with
  | nil => simp at h
  | cons x procs ih =>
    cases i with
    | zero =>
      simp only [List.getElem?_cons_zero, Option.some.injEq] at h
      subst h
      simp
    | succ i =>
      simp only [List.getElem?_cons_succ] at h
      rw [List.set_cons_succ, List.flatten_cons, List.flatten_cons]
      exact (List.perm_middle.symm).trans ((ih i h).append_left x)

theorem group_invariant (total : K → List V) (schedule : List ℕ) (s : GroupState K V)
    (h : ∀ k, (s.dict k ++ s.remaining k).Perm (total k)) :
    ∀ k, ((s.run schedule).dict k ++ (s.run schedule).remaining k).Perm (total k) := by
  induction schedule generalizing s with
  | nil => exact h
  | cons i schedule ih =>
    apply ih
    intro k
    unfold GroupState.step
    cases hp : s.procs[i]? with
    | none => exact h k
    | some p =>
      cases p with
      | nil => exact h k
      | cons e rest =>
        have hperm := valuesOf_perm (k := k) (flatten_set s.procs i e rest hp)
        rw [valuesOf_cons] at hperm
        refine List.Perm.trans ?_ (h k)
        unfold GroupState.remaining
        dsimp only
        by_cases hk : e.1 = k
        · rw [if_pos hk.symm, List.append_assoc]
          rw [if_pos hk] at hperm
          exact hperm.append_left _
        · rw [if_neg (fun h => hk h.symm)]
          rw [if_neg hk] at hperm
          exact hperm.append_left _

/-- C40: grouping on the multi-process backend meets the grouping contract for every interleaving of any number of
workers. -/
theorem C40_group_exact (col : List (K × V)) (work : List (List (K × V))) (hw : work.flatten.Perm col) (schedule : List ℕ)
    (hf : ((GroupState.start work).run schedule).finished) : IsGrouping col (multiProcGroup col work schedule) := by
  have hk : (multiProcGroup col work schedule).map Prod.fst = (col.map Prod.fst).dedup := by
    simp [multiProcGroup, Function.comp_def]
  refine ⟨by rw [hk]; exact List.nodup_dedup _, fun k => by rw [hk, List.mem_dedup], fun e he => ?_⟩
  obtain ⟨k, -, rfl⟩ := List.mem_map.mp he
  have := group_invariant (fun k => valuesOf k work.flatten) schedule (GroupState.start work)
    (fun k => by simp [GroupState.start, GroupState.remaining]) k
  have hz : ((GroupState.start work).run schedule).procs.flatten = [] := by
    rw [List.flatten_eq_nil_iff]; exact hf
  rw [GroupState.remaining, hz] at this
  simp only [valuesOf_nil, List.append_nil] at this
  exact this.trans (valuesOf_perm hw)

/-- C40: sampling per key on the multi-process backend keeps every key with `min n (number of its values)` of its own
values, for every interleaving and every random outcome. -/
theorem C40_sample_exact (sample : K → List V → ℕ → List V)
    (hs : ∀ k l n, n ≤ l.length → (sample k l n).Subperm l ∧ (sample k l n).length = n)
    (col : List (K × V)) (work : List (List (K × V))) (hw : work.flatten.Perm col) (schedule : List ℕ)
    (hf : ((GroupState.start work).run schedule).finished) (n : ℕ) :
    IsSampling n col (multiProcSample sample (multiProcGroup col work schedule) n) := by
  have hg := C40_group_exact col work hw schedule hf
  have hk : (multiProcSample sample (multiProcGroup col work schedule) n).map Prod.fst
      = (multiProcGroup col work schedule).map Prod.fst := by
    simp [multiProcSample, Function.comp_def]
  refine ⟨by rw [hk]; exact hg.nodup, fun k => by rw [hk]; exact hg.keys k, fun e he => ?_, fun e he => ?_⟩
  · obtain ⟨x, hx, rfl⟩ := List.mem_map.mp he
    have hp := hg.values x hx
    dsimp only
    split
    · exact (hs _ _ _ (by omega)).1.trans hp.subperm
    · exact hp.subperm
  · obtain ⟨x, hx, rfl⟩ := List.mem_map.mp he
    have hp := (hg.values x hx).length_eq
    dsimp only
    split
    · rw [(hs _ _ _ (by omega)).2]; omega
    · omega

/-- C40 (defect): when the input is a one-shot iterator, grouping returns every key with no values. -/
theorem C40_group_of_generator (col : List (K × V)) (work : List (List (K × V))) (hw : work.flatten = []) (schedule : List ℕ) :
    multiProcGroup col work schedule = (col.map Prod.fst).dedup.map fun k => (k, []) := by
  unfold multiProcGroup
  apply List.map_congr_left
  intro k _
  have := group_invariant (fun k => valuesOf k work.flatten) schedule (GroupState.start work)
    (fun k => by simp [GroupState.start, GroupState.remaining]) k
  rw [hw] at this
  have h := this.eq_nil
  rw [Prod.mk.injEq]
  exact ⟨rfl, (List.append_eq_nil_iff.mp h).1⟩

/-- Two workers, three rows: a sequential schedule counts right, an interleaved one does not; grouping is right. -/
example : multiProcCount [7, 7, 8] [[7, 8], [7]] [0, 0, 1, 1, 0, 0] = [(7, 2), (8, 1)] ∧
    multiProcCount [7, 7, 8] [[7, 8], [7]] [0, 1, 0, 1, 0, 0] = [(7, 1), (8, 1)] ∧
    multiProcGroup [(7, 'a'), (7, 'b'), (8, 'c')] [[(7, 'a'), (8, 'c')], [(7, 'b')]] [1, 0, 0]
      = [(7, ['b', 'a']), (8, ['c'])] := by decide +kernel

example : ((CountState.start [[7, 8], [7]]).run [0, 1, 0, 1, 0, 0]).finished := by
  intro p hp
  have : ((CountState.start [[7, 8], [7]]).run [0, 1, 0, 1, 0, 0]).procs = [⟨[], none⟩, ⟨[], none⟩] := rfl
  rw [this] at hp
  simp at hp
  rw [hp]

end PDP.Backend
