import Mathlib.Data.List.Nodup

/-!
# Serialisation of results and of combiners (C82)

Results (`MetricsTuple`) and combiners are pickled when Beam, Spark or multi-processing moves them between processes.  A process has
its own cache of named tuple types; a copy of a combiner has its own copy of the mechanism specification.
-/

set_option linter.unusedSectionVars false

namespace PDP.Serialise

/-! ### Named tuples -/

/-- A class made by `collections.namedtuple`; `id` is its identity. -/
structure TupleType where
  id : ℕ
  name : String
  fields : List String
deriving DecidableEq, Repr

/-- A process: `_named_tuple_cache` (`combiners.py:672-674`) and the next fresh identity. -/
structure Process where
  cache : List ((String × List String) × TupleType) := []
  next : ℕ := 0
deriving DecidableEq, Repr

/-- An instance of a named tuple type. -/
structure Instance (V : Type) where
  type : TupleType
  values : List V
deriving DecidableEq, Repr

/-- What Python raises. -/
inductive PyErr | valueError | typeError | assertionError | pickleError | exception
deriving DecidableEq, Repr

variable {V : Type}

/-- `combiners.py:677-691` `_get_or_create_named_tuple`.  `valid` says which names `collections.namedtuple` accepts. -/
def getOrCreate (valid : String → List String → Bool) (pr : Process) (name : String) (fields : List String) :
    Except PyErr TupleType × Process :=
  match pr.cache.find? fun e => e.1 = (name, fields) with
  | some e => (.ok e.2, pr)
  | none =>
    if valid name fields then
      let t : TupleType := ⟨pr.next, name, fields⟩
      (.ok t, ⟨pr.cache ++ [((name, fields), t)], pr.next + 1⟩)
    else (.error .valueError, pr)

/-- `combiners.py:694-695` `_create_named_tuple_instance`; a named tuple takes exactly one value per field. -/
def createInstance (valid : String → List String → Bool) (pr : Process) (name : String) (fields : List String)
    (values : List V) : Except PyErr (Instance V) × Process :=
  match getOrCreate valid pr name fields with
  | (.error e, pr) => (.error e, pr)
  | (.ok t, pr) => if values.length = t.fields.length then (.ok ⟨t, values⟩, pr) else (.error .typeError, pr)

/-- `combiners.py:687-689` `__reduce__`: the arguments of `_create_named_tuple_instance` that are written.  The names are those with
which the type was created. -/
def reduceInstance (x : Instance V) : String × List String × List V := (x.type.name, x.type.fields, x.values)

/-- What happens in a process: a result is made (`combiners.py:786-788`), or a pickled result arrives. -/
inductive TupleOp (V : Type)
  | create (name : String) (fields : List String) (values : List V)
  | receive (bytes : String × List String × List V)

/-- One step: the instance that is made, and the process after it. -/
def TupleOp.step (valid : String → List String → Bool) (pr : Process) : TupleOp V → Except PyErr (Instance V) × Process
  | .create n f v => createInstance valid pr n f v
  | .receive b => createInstance valid pr b.1 b.2.1 b.2.2

/-- A history: the process and all instances made so far. -/
def runTuples (valid : String → List String → Bool) : List (TupleOp V) → Process × List (Instance V)
  | [] => ({}, [])
  | op :: ops =>
    let st := runTuples valid ops
    match op.step valid st.1 with
    | (.ok x, pr) => (pr, x :: st.2)
    | (.error _, pr) => (pr, st.2)

/-! Specification of named tuples -/

/-- The value of a field, as seen by attribute access. -/
def Instance.attribute (x : Instance V) (field : String) : Option V :=
  x.values[x.type.fields.idxOf field]?

/-- The invariant of the cache. -/
structure Process.Ok (valid : String → List String → Bool) (pr : Process) : Prop where
  entries : ∀ e ∈ pr.cache, e.1 = (e.2.name, e.2.fields) ∧ e.2.id < pr.next ∧ valid e.2.name e.2.fields = true
  keys : (pr.cache.map Prod.fst).Nodup
  ids : (pr.cache.map fun e => e.2.id).Nodup

theorem getOrCreate_ok {valid : String → List String → Bool} {pr : Process} (h : pr.Ok valid) (name : String)
    (fields : List String) :
    (getOrCreate valid pr name fields).2.Ok valid ∧
      (∀ e ∈ pr.cache, e ∈ (getOrCreate valid pr name fields).2.cache) ∧
      (∀ t, (getOrCreate valid pr name fields).1 = .ok t →
        ((name, fields), t) ∈ (getOrCreate valid pr name fields).2.cache ∧ t.name = name ∧ t.fields = fields) ∧
      (valid name fields = true → ∃ t, (getOrCreate valid pr name fields).1 = .ok t) := by
  unfold getOrCreate
  rcases hf : pr.cache.find? (fun e => e.1 = (name, fields)) with _ | e
  · rw [hf]
    dsimp only
    by_cases hv : valid name fields = true
    · rw [if_pos hv]
      refine ⟨⟨?_, ?_, ?_⟩, ?_, ?_, ?_⟩
      · intro e he
        rcases List.mem_append.mp he with he | he
        · obtain ⟨h1, h2, h3⟩ := h.entries e he
          exact ⟨h1, Nat.lt_succ_of_lt h2, h3⟩
        · rw [List.mem_singleton] at he
          subst he
          exact ⟨rfl, Nat.lt_succ_self _, hv⟩
      · rw [List.map_append, List.nodup_append]
        refine ⟨h.keys, by simp, ?_⟩
        intro a ha b hb hab
        obtain ⟨e, he, rfl⟩ := List.mem_map.mp ha
        rw [List.map_singleton, List.mem_singleton] at hb
        have := List.find?_eq_none.mp hf e he
        simp [hab, hb] at this
      · rw [List.map_append, List.nodup_append]
        refine ⟨h.ids, by simp, ?_⟩
        intro a ha b hb hab
        obtain ⟨e, he, rfl⟩ := List.mem_map.mp ha
        rw [List.map_singleton, List.mem_singleton] at hb
        have := (h.entries e he).2.1
        simp only at hb
        omega
      · intro e he
        exact List.mem_append_left _ he
      · rintro t ht
        cases ht
        exact ⟨by simp, rfl, rfl⟩
      · exact fun _ => ⟨_, rfl⟩
    · rw [if_neg hv]
      exact ⟨h, fun e he => he, fun t ht => (by cases ht), fun h => absurd h hv⟩
  · rw [hf]
    have hm := List.mem_of_find?_eq_some hf
    have hk : e.1 = (name, fields) := by simpa using List.find?_some hf
    refine ⟨h, fun e he => he, ?_, fun _ => ⟨_, rfl⟩⟩
    rintro t ht
    cases ht
    have := (h.entries e hm).1
    rw [hk, Prod.mk.injEq] at this
    refine ⟨?_, this.1.symm, this.2.symm⟩
    rw [← hk]
    exact hm

theorem createInstance_ok {valid : String → List String → Bool} {pr : Process} (h : pr.Ok valid) (name : String)
    (fields : List String) (values : List V) :
    (createInstance valid pr name fields values).2.Ok valid ∧
      (∀ e ∈ pr.cache, e ∈ (createInstance valid pr name fields values).2.cache) ∧
      (∀ x, (createInstance valid pr name fields values).1 = .ok x →
        ((name, fields), x.type) ∈ (createInstance valid pr name fields values).2.cache ∧ x.type.name = name ∧
          x.type.fields = fields ∧ x.values = values ∧ values.length = fields.length) ∧
      (valid name fields = true → values.length = fields.length →
        ∃ x, (createInstance valid pr name fields values).1 = .ok x) := by
  obtain ⟨h1, h2, h3, h4⟩ := getOrCreate_ok h name fields
  unfold createInstance
  rcases hg : getOrCreate valid pr name fields with ⟨r, pr'⟩
  rw [hg] at h1 h2 h3 h4
  cases r with
  | error e =>
    exact ⟨h1, h2, fun x hx => (by cases hx), fun hv => by obtain ⟨t, ht⟩ := h4 hv; cases ht⟩
  | ok t =>
    obtain ⟨k1, k2, k3⟩ := h3 t rfl
    dsimp only
    by_cases hl : values.length = t.fields.length
    · rw [if_pos hl]
      refine ⟨h1, h2, ?_, fun _ _ => ⟨_, rfl⟩⟩
      rintro x hx
      cases hx
      exact ⟨k1, k2, k3, rfl, by rw [hl, k3]⟩
    · rw [if_neg hl]
      exact ⟨h1, h2, fun x hx => (by cases hx), fun _ h => absurd (by rw [h, k3]) hl⟩

theorem step_eq (valid : String → List String → Bool) (pr : Process) (op : TupleOp V) :
    ∃ n f v, op.step valid pr = createInstance valid pr n f v := by
  cases op with
  | create n f v => exact ⟨n, f, v, rfl⟩
  | receive b => exact ⟨b.1, b.2.1, b.2.2, rfl⟩

/-- After any history the cache is in order, and has the type of every instance. -/
theorem run_ok (valid : String → List String → Bool) (ops : List (TupleOp V)) :
    (runTuples valid ops).1.Ok valid ∧
      ∀ x ∈ (runTuples valid ops).2, ((x.type.name, x.type.fields), x.type) ∈ (runTuples valid ops).1.cache ∧
        x.values.length = x.type.fields.length := by
  induction ops with
  | nil => exact ⟨⟨by simp [runTuples], by simp [runTuples], by simp [runTuples]⟩, by simp [runTuples]⟩
  | cons op ops ih =>
    obtain ⟨n, f, v, hop⟩ := step_eq valid (runTuples valid ops).1 op
    obtain ⟨h1, h2, h3, -⟩ := createInstance_ok (V := V) ih.1 n f v
    simp only [runTuples, hop]
    rcases hc : createInstance valid (runTuples valid ops).1 n f v with ⟨r, pr⟩
    rw [hc] at h1 h2 h3
    cases r with
    | error e => exact ⟨h1, fun x hx => ⟨h2 _ (ih.2 x hx).1, (ih.2 x hx).2⟩⟩
    | ok y =>
      refine ⟨h1, fun x hx => ?_⟩
      rcases List.mem_cons.mp hx with rfl | hx
      · obtain ⟨k1, k2, k3, k4, k5⟩ := h3 x rfl
        exact ⟨by rw [k2, k3]; exact k1, by rw [k4, k3]; exact k5⟩
      · exact ⟨h2 _ (ih.2 x hx).1, (ih.2 x hx).2⟩

theorem type_of_names {valid : String → List String → Bool} {pr : Process} (h : pr.Ok valid) {key : String × List String}
    {a b : TupleType} (ha : (key, a) ∈ pr.cache) (hb : (key, b) ∈ pr.cache) : a = b := by
  have := List.inj_on_of_nodup_map h.keys ha hb rfl
  exact (Prod.mk.inj this).2

/-- **C82** (results between processes).  A result that is made in one process, pickled, and read in another process (with any history
of results made and read in both) arrives with the same type name, field names and values, so every attribute has the same value;
reading never fails. -/
theorem C82_results_arrive_unchanged (valid : String → List String → Bool) (here there : List (TupleOp V)) (x : Instance V)
    (hx : x ∈ (runTuples valid here).2) :
    ∃ y, runTuples valid (.receive (reduceInstance x) :: there)
        = ((TupleOp.step valid (runTuples valid there).1 (.receive (reduceInstance x))).2, y :: (runTuples valid there).2) ∧
      y.type.name = x.type.name ∧ y.type.fields = x.type.fields ∧ y.values = x.values ∧
      ∀ f, y.attribute f = x.attribute f := by
  obtain ⟨h1, h2⟩ := run_ok valid here
  obtain ⟨hc, hl⟩ := h2 x hx
  obtain ⟨-, -, h5, h6⟩ := createInstance_ok (V := V) (run_ok valid there).1 x.type.name x.type.fields x.values
  obtain ⟨y, hy⟩ := h6 (h1.entries _ hc).2.2 hl
  obtain ⟨-, k2, k3, k4, -⟩ := h5 y hy
  refine ⟨y, ?_, k2, k3, k4, fun f => by rw [Instance.attribute, Instance.attribute, k3, k4]⟩
  simp only [runTuples, TupleOp.step, reduceInstance] at hy ⊢
  rcases hr : createInstance valid (runTuples valid there).1 x.type.name x.type.fields x.values with ⟨r, pr⟩
  rw [hr] at hy
  dsimp only at hy
  subst hy
  rfl

/-- **C82** (one type per process).  Within a process two results have the same type if and only if they have the same names,
however they came about; no two types of a process have the same identity. -/
theorem C82_one_type_per_process (valid : String → List String → Bool) (ops : List (TupleOp V)) (x y : Instance V)
    (hx : x ∈ (runTuples valid ops).2) (hy : y ∈ (runTuples valid ops).2) :
    (x.type = y.type ↔ x.type.name = y.type.name ∧ x.type.fields = y.type.fields) ∧
      (x.type.id = y.type.id ↔ x.type = y.type) := by
  obtain ⟨h1, h2⟩ := run_ok valid ops
  have hx' := (h2 x hx).1
  have hy' := (h2 y hy).1
  refine ⟨⟨fun h => by rw [h]; exact ⟨rfl, rfl⟩, fun ⟨ha, hb⟩ => ?_⟩, fun h => ?_, fun h => by rw [h]⟩
  · rw [ha, hb] at hx'
    exact type_of_names h1 hx' hy'
  · have := List.inj_on_of_nodup_map h1.ids hx' hy' h
    exact (Prod.mk.inj this).2

/-- **C82** (copies within a process).  A result that is pickled and read in the same process is equal to the original, with the
same type. -/
theorem C82_copy_is_equal (valid : String → List String → Bool) (ops : List (TupleOp V)) (x : Instance V)
    (hx : x ∈ (runTuples valid ops).2) :
    (runTuples valid (.receive (reduceInstance x) :: ops)).2 = x :: (runTuples valid ops).2 := by
  obtain ⟨y, h1, h2, h3, h4, -⟩ := C82_results_arrive_unchanged valid ops ops x hx
  have hy : y ∈ (runTuples valid (.receive (reduceInstance x) :: ops)).2 := by rw [h1]; simp
  have hx2 : x ∈ (runTuples valid (.receive (reduceInstance x) :: ops)).2 := by rw [h1]; simp [hx]
  have ht := (C82_one_type_per_process valid (.receive (reduceInstance x) :: ops) y x hy hx2).1.mpr ⟨h2, h3⟩
  have : y = x := by
    cases y; cases x
    simp only at ht h4
    rw [ht, h4]
  rw [h1, this]

/-! ### Mechanisms of combiners -/

variable {S M : Type}

/-- A combiner: the budget of its mechanism specification (`None` before `compute_budgets`) and the attribute `_mechanism`, if it
exists (`combiners.py:189-217`). -/
structure Container (S M : Type) where
  budget : Option S
  mechanism : Option M
deriving DecidableEq, Repr

/-- `combiners.py:203-211` `__getstate__`. -/
def getState (c : Container S M) : Container S M := { c with mechanism := none }

/-- Pickling writes the state; a mechanism of PyDP cannot be pickled.  Reading sets the attributes of a new object, with its own copy
of the specification. -/
def pickle (c : Container S M) : Except PyErr (Container S M) :=
  let state := getState c
  if state.mechanism.isSome then .error .pickleError else .ok state

/-- `combiners.py:213-217` `get_mechanism`; `create` is `create_mechanism` of the combiner, which reads the budget
(`budget_accounting.py:55-86`: an assertion fails before `compute_budgets`). -/
def getMechanism (create : S → Except PyErr M) (c : Container S M) : Except PyErr M × Container S M :=
  match c.mechanism with
  | some m => (.ok m, c)
  | none =>
    match c.budget with
    | none => (.error .assertionError, c)
    | some b =>
      match create b with
      | .error e => (.error e, c)
      | .ok m => (.ok m, { c with mechanism := some m })

/-- What happens to a combiner and its copies; object `0` is the original. -/
inductive ContainerOp (S : Type)
  | compute (b : S)
  | use (i : ℕ)
  | copy (i : ℕ)

/-- What an operation returns. -/
inductive ContainerOut (M : Type)
  | done
  | mechanism (m : M)
  | failed (e : PyErr)
deriving DecidableEq, Repr

/-- One step.  `compute_budgets` sets the budget of the specification that the accountant holds, which is the one of the original;
a second call raises (`budget_accounting.py:267-270`). -/
def ContainerOp.step (create : S → Except PyErr M) (objs : List (Container S M)) :
    ContainerOp S → ContainerOut M × List (Container S M)
  | .compute b =>
    match objs[0]? with
    | some c => if c.budget.isSome then (.failed .exception, objs) else (.done, objs.set 0 { c with budget := some b })
    | none => (.done, objs)
  | .use i =>
    match objs[i]? with
    | some c =>
      match getMechanism create c with
      | (.ok m, c) => (.mechanism m, objs.set i c)
      | (.error e, c) => (.failed e, objs.set i c)
    | none => (.failed .typeError, objs)
  | .copy i =>
    match objs[i]? with
    | some c =>
      match pickle c with
      | .ok c => (.done, objs ++ [c])
      | .error e => (.failed e, objs)
    | none => (.failed .typeError, objs)

/-- A history of the original and its copies, in the order of time. -/
def runContainers (create : S → Except PyErr M) : List (Container S M) → List (ContainerOp S) →
    List (ContainerOut M) × List (Container S M)
  | objs, [] => ([], objs)
  | objs, op :: ops =>
    let r := op.step create objs
    let rest := runContainers create r.2 ops
    (r.1 :: rest.1, rest.2)

/-- The combiner as made by the factory. -/
def fresh : List (Container S M) := [⟨none, none⟩]

/-! Specification -/

/-- The budget of the first `compute_budgets` of a history. -/
def firstBudget : List (ContainerOp S) → Option S
  | [] => none
  | .compute b :: _ => some b
  | _ :: ops => firstBudget ops

/-- An object agrees with the budget `b`: it knows at most this budget, and its mechanism is made for it. -/
def Container.Agrees (create : S → Except PyErr M) (b : S) (c : Container S M) : Prop :=
  (∀ x, c.budget = some x → x = b) ∧ ∀ m, c.mechanism = some m → c.budget = some b ∧ create b = .ok m

theorem getMechanism_agrees {create : S → Except PyErr M} {b : S} {c : Container S M} (h : c.Agrees create b) :
    (getMechanism create c).2.Agrees create b ∧ (getMechanism create c).2.budget = c.budget ∧
      (∀ m, (getMechanism create c).1 = .ok m → create b = .ok m) := by
  unfold getMechanism
  cases hm : c.mechanism with
  | some m =>
    refine ⟨h, rfl, fun m' hm' => ?_⟩
    cases hm'
    exact (h.2 m hm).2
  | none =>
    cases hb : c.budget with
    | none => exact ⟨h, hb, fun m hm => (by cases hm)⟩
    | some x =>
      obtain rfl := h.1 x hb
      dsimp only
      cases hc : create x with
      | error e => exact ⟨h, hb, fun m hm => (by cases hm)⟩
      | ok m =>
        dsimp only
        refine ⟨⟨fun y hy => (Option.some.inj hy).symm, fun m' hm' => ⟨rfl, ?_⟩⟩, rfl, fun m' hm' => hm'⟩
        rw [Option.some.inj hm'] at hc
        exact hc

theorem getElem?_set_cases {α : Type} {l : List α} {i j : ℕ} {a b : α} (h : (l.set i a)[j]? = some b) :
    b = a ∨ l[j]? = some b := by
  rw [List.getElem?_set] at h
  split at h
  · split at h
    · left; simpa using h.symm
    · cases h
  · exact .inr h

/-- After the first `compute_budgets` every object agrees with its budget. -/
theorem run_agrees (create : S → Except PyErr M) (b : S) (ops : List (ContainerOp S)) : ∀ objs : List (Container S M),
    (∃ c, objs[0]? = some c ∧ c.budget = some b) → (∀ c ∈ objs, c.Agrees create b) →
    (∀ m, ContainerOut.mechanism m ∈ (runContainers create objs ops).1 → create b = .ok m) ∧
      ∀ c ∈ (runContainers create objs ops).2, c.Agrees create b := by
  induction ops with
  | nil => exact fun objs _ h => ⟨fun m hm => by simp [runContainers] at hm, h⟩
  | cons op ops ih =>
    rintro objs ⟨c0, h0, hb⟩ h
    have key : (∃ c, (op.step create objs).2[0]? = some c ∧ c.budget = some b) ∧
        (∀ c ∈ (op.step create objs).2, c.Agrees create b) ∧
        ∀ m, (op.step create objs).1 = .mechanism m → create b = .ok m := by
      cases op with
      | compute x =>
        simp only [ContainerOp.step, h0, hb, Option.isSome_some, if_true]
        exact ⟨⟨c0, rfl, hb⟩, h, fun m hm => (by cases hm)⟩
      | copy i =>
        simp only [ContainerOp.step]
        rcases hi : objs[i]? with _ | c
        · exact ⟨⟨c0, h0, hb⟩, h, fun m hm => (by cases hm)⟩
        · have hc := h c (List.mem_of_getElem? hi)
          simp only [pickle, getState, Option.isSome_none, Bool.false_eq_true, if_false]
          refine ⟨⟨c0, ?_, hb⟩, fun x hx => ?_, fun m hm => (by cases hm)⟩
          · rw [List.getElem?_append_left (List.getElem?_eq_some_iff.mp h0).1]; exact h0
          · rcases List.mem_append.mp hx with hx | hx
            · exact h x hx
            · rw [List.mem_singleton] at hx
              subst hx
              exact ⟨hc.1, fun m hm => (by cases hm)⟩
      | use i =>
        simp only [ContainerOp.step]
        rcases hi : objs[i]? with _ | c
        · exact ⟨⟨c0, h0, hb⟩, h, fun m hm => (by cases hm)⟩
        · obtain ⟨g1, g2, g3⟩ := getMechanism_agrees (h c (List.mem_of_getElem? hi))
          rcases hg : getMechanism create c with ⟨r, c'⟩
          rw [hg] at g1 g2 g3
          have hset : (∃ d, (objs.set i c')[0]? = some d ∧ d.budget = some b) ∧ ∀ d ∈ objs.set i c', d.Agrees create b := by
            refine ⟨?_, fun d hd => ?_⟩
            · by_cases hi0 : i = 0
              · subst hi0
                rw [h0] at hi
                cases hi
                refine ⟨c', ?_, by rw [g2]; exact hb⟩
                rw [List.getElem?_set_self (List.getElem?_eq_some_iff.mp h0).1]
              · exact ⟨c0, by rw [List.getElem?_set_ne hi0]; exact h0, hb⟩
            · rcases List.mem_or_eq_of_mem_set hd with hd | rfl
              · exact h d hd
              · exact g1
          simp only [hg]
          cases r with
          | ok m => exact ⟨hset.1, hset.2, fun m' hm' => by cases hm'; exact g3 _ rfl⟩
          | error e => exact ⟨hset.1, hset.2, fun m' hm' => by cases hm'⟩
    obtain ⟨k1, k2, k3⟩ := key
    obtain ⟨r1, r2⟩ := ih (op.step create objs).2 k1 k2
    refine ⟨fun m hm => ?_, r2⟩
    simp only [runContainers, List.mem_cons] at hm
    rcases hm with hm | hm
    · exact k3 m hm.symm
    · exact r1 m hm

theorem run_blank (create : S → Except PyErr M) (ops : List (ContainerOp S)) : ∀ objs : List (Container S M),
    objs ≠ [] → (∀ c ∈ objs, c = ⟨none, none⟩) → ∀ m, ContainerOut.mechanism m ∈ (runContainers create objs ops).1 →
      ∃ b, firstBudget ops = some b ∧ create b = .ok m := by
  induction ops with
  | nil => intro objs _ _ m hm; simp [runContainers] at hm
  | cons op ops ih =>
    intro objs hne h m hm
    simp only [runContainers, List.mem_cons] at hm
    cases op with
    | compute b =>
      refine ⟨b, rfl, ?_⟩
      cases objs with
      | nil => exact absurd rfl hne
      | cons c objs =>
        have hc : c = ⟨none, none⟩ := h c (by simp)
        subst hc
        simp only [ContainerOp.step, List.getElem?_cons_zero, Option.isSome_none, Bool.false_eq_true, if_false,
          List.set_cons_zero, reduceCtorEq, false_or] at hm
        refine (run_agrees create b ops _ ⟨_, by rw [List.getElem?_cons_zero], rfl⟩ ?_).1 m hm
        intro d hd
        rcases List.mem_cons.mp hd with rfl | hd
        · exact ⟨fun x hx => (Option.some.inj hx).symm, fun m hm => (by cases hm)⟩
        · rw [h d (by simp [hd])]
          exact ⟨fun x hx => (by cases hx), fun m hm => (by cases hm)⟩
    | use i =>
      simp only [firstBudget]
      simp only [ContainerOp.step] at hm
      rcases hi : objs[i]? with _ | c
      · rw [hi] at hm
        simp only [reduceCtorEq, false_or] at hm
        exact ih objs hne h m hm
      · have hc := h c (List.mem_of_getElem? hi)
        subst hc
        rw [hi] at hm
        simp only [getMechanism, reduceCtorEq, false_or] at hm
        refine ih _ ?_ ?_ m hm
        · intro h0
          refine hne (List.length_eq_zero_iff.mp ?_)
          rw [← List.length_set (i := i), h0]
          rfl
        · intro d hd
          rcases List.mem_or_eq_of_mem_set hd with hd | rfl
          · exact h d hd
          · rfl
    | copy i =>
      simp only [firstBudget]
      simp only [ContainerOp.step] at hm
      rcases hi : objs[i]? with _ | c
      · rw [hi] at hm
        simp only [reduceCtorEq, false_or] at hm
        exact ih objs hne h m hm
      · have hc := h c (List.mem_of_getElem? hi)
        subst hc
        rw [hi] at hm
        simp only [pickle, getState, Option.isSome_none, Bool.false_eq_true, if_false, reduceCtorEq, false_or] at hm
        refine ih _ (by simp) ?_ m hm
        intro d hd
        rcases List.mem_append.mp hd with hd | hd
        · exact h d hd
        · simpa using hd

/-- **C82** (copies of combiners).  In any history of `compute_budgets`, use and pickling of a combiner and its copies, every mechanism
that any of them returns is the one created from the budget of the first `compute_budgets`. -/
theorem C82_copies_use_the_same_mechanism (create : S → Except PyErr M) (ops : List (ContainerOp S)) (m : M)
    (hm : ContainerOut.mechanism m ∈ (runContainers create fresh ops).1) :
    ∃ b, firstBudget ops = some b ∧ create b = .ok m :=
  run_blank create ops fresh (by simp [fresh]) (by simp [fresh]) m hm

theorem step_length (create : S → Except PyErr M) (op : ContainerOp S) (objs : List (Container S M)) (i : ℕ) (hi : 1 ≤ i)
    (c : Container S M) (h : objs[i]? = some c) :
    ∃ c', (op.step create objs).2[i]? = some c' ∧ c'.budget = c.budget := by
  cases op with
  | compute b =>
    simp only [ContainerOp.step]
    split
    · split
      · exact ⟨c, h, rfl⟩
      · exact ⟨c, by rw [List.getElem?_set_ne (by omega)]; exact h, rfl⟩
    · exact ⟨c, h, rfl⟩
  | use j =>
    simp only [ContainerOp.step]
    rcases hj : objs[j]? with _ | d
    · exact ⟨c, h, rfl⟩
    · have hb : (getMechanism create d).2.budget = d.budget := by
        unfold getMechanism
        split
        · rfl
        · split
          · rfl
          · split <;> rfl
      have : ∃ c', (objs.set j (getMechanism create d).2)[i]? = some c' ∧ c'.budget = c.budget := by
        by_cases hij : j = i
        · subst hij
          rw [h] at hj
          cases hj
          exact ⟨_, List.getElem?_set_self (List.getElem?_eq_some_iff.mp h).1, hb⟩
        · exact ⟨c, by rw [List.getElem?_set_ne hij]; exact h, rfl⟩
      rcases hg : getMechanism create d with ⟨r, d'⟩
      rw [hg] at this
      simp only [hg]
      cases r <;> exact this
  | copy j =>
    simp only [ContainerOp.step]
    rcases hj : objs[j]? with _ | d
    · exact ⟨c, h, rfl⟩
    · simp only [pickle, getState, Option.isSome_none, Bool.false_eq_true, if_false]
      exact ⟨c, by rw [List.getElem?_append_left (List.getElem?_eq_some_iff.mp h).1]; exact h, rfl⟩

theorem run_budget (create : S → Except PyErr M) (ops : List (ContainerOp S)) (i : ℕ) (hi : 1 ≤ i) :
    ∀ (objs : List (Container S M)) (c : Container S M), objs[i]? = some c →
      ∃ c', (runContainers create objs ops).2[i]? = some c' ∧ c'.budget = c.budget := by
  induction ops with
  | nil => exact fun objs c h => ⟨c, h, rfl⟩
  | cons op ops ih =>
    intro objs c h
    obtain ⟨c', h1, h2⟩ := step_length create op objs i hi c h
    obtain ⟨c'', h3, h4⟩ := ih _ c' h1
    exact ⟨c'', h3, h4.trans h2⟩

theorem run_nonempty (create : S → Except PyErr M) (ops : List (ContainerOp S)) : ∀ objs : List (Container S M),
    objs.length ≤ (runContainers create objs ops).2.length := by
  induction ops with
  | nil => exact fun objs => Nat.le_refl _
  | cons op ops ih =>
    intro objs
    refine Nat.le_trans ?_ (ih _)
    cases op with
    | compute b => simp only [ContainerOp.step]; split <;> [split; skip] <;> simp
    | use j =>
      simp only [ContainerOp.step]
      split
      · split <;> simp
      · simp
    | copy j =>
      simp only [ContainerOp.step]
      split
      · split <;> simp
      · simp

/-- Mechanisms are made for the budget of their object. -/
def Good (create : S → Except PyErr M) (objs : List (Container S M)) : Prop :=
  ∀ c ∈ objs, ∀ m, c.mechanism = some m → ∃ b, c.budget = some b ∧ create b = .ok m

theorem getMechanism_good {create : S → Except PyErr M} {c : Container S M}
    (h : ∀ m, c.mechanism = some m → ∃ b, c.budget = some b ∧ create b = .ok m) :
    (∀ m, (getMechanism create c).2.mechanism = some m → ∃ b, (getMechanism create c).2.budget = some b ∧ create b = .ok m) ∧
      ∀ m, (getMechanism create c).1 = .ok m ↔ ∃ b, c.budget = some b ∧ create b = .ok m := by
  unfold getMechanism
  cases hm : c.mechanism with
  | some m =>
    obtain ⟨b, h1, h2⟩ := h m hm
    refine ⟨h, fun m' => ⟨fun h' => by cases h'; exact ⟨b, h1, h2⟩, fun ⟨b', h3, h4⟩ => ?_⟩⟩
    rw [h1] at h3
    cases h3
    rw [h2] at h4
    cases h4
    rfl
  | none =>
    cases hb : c.budget with
    | none =>
      refine ⟨?_, fun m => ?_⟩
      · intro m h'; rw [hm] at h'; cases h'
      · simp
    | some b =>
      dsimp only
      cases hc : create b with
      | error e =>
        refine ⟨?_, fun m => ?_⟩
        · intro m h'; rw [hm] at h'; cases h'
        · constructor
          · intro h'; cases h'
          · rintro ⟨b', h1, h2⟩
            cases h1
            rw [hc] at h2
            cases h2
      | ok m =>
        refine ⟨fun m' h' => ⟨b, rfl, ?_⟩, fun m' => ⟨fun h' => ⟨b, rfl, by rw [hc]; exact h'⟩, ?_⟩⟩
        · rw [Option.some.inj h'] at hc; exact hc
        · rintro ⟨b', h1, h2⟩
          cases h1
          rw [hc] at h2
          exact h2

theorem step_good {create : S → Except PyErr M} (op : ContainerOp S) {objs : List (Container S M)} (h : Good create objs) 
    (h0 : ∀ c, objs[0]? = some c → c.budget = none → c.mechanism = none) :
    Good create (op.step create objs).2 := by
  cases op with
  | compute b =>
    simp only [ContainerOp.step]
    split
    · rename_i c hc
      split
      · exact h
      · rename_i hb
        intro d hd m hm
        rcases List.mem_or_eq_of_mem_set hd with hd | rfl
        · exact h d hd m hm
        · have := h0 c hc (by simpa using hb)
          rw [this] at hm
          cases hm
    · exact h
  | use i =>
    simp only [ContainerOp.step]
    rcases hi : objs[i]? with _ | c
    · exact h
    · have hg := (getMechanism_good (h c (List.mem_of_getElem? hi))).1
      have : Good create (objs.set i (getMechanism create c).2) := by
        intro d hd m hm
        rcases List.mem_or_eq_of_mem_set hd with hd | rfl
        · exact h d hd m hm
        · exact hg m hm
      rcases hr : getMechanism create c with ⟨r, c'⟩
      rw [hr] at this
      simp only [hr]
      cases r <;> exact this
  | copy i =>
    simp only [ContainerOp.step]
    rcases hi : objs[i]? with _ | c
    · exact h
    · simp only [pickle, getState, Option.isSome_none, Bool.false_eq_true, if_false]
      intro d hd m hm
      rcases List.mem_append.mp hd with hd | hd
      · exact h d hd m hm
      · rw [List.mem_singleton] at hd
        subst hd
        cases hm

theorem run_good {create : S → Except PyErr M} (ops : List (ContainerOp S)) : ∀ {objs : List (Container S M)}, Good create objs →
    Good create (runContainers create objs ops).2 := by
  induction ops with
  | nil => exact fun h => h
  | cons op ops ih =>
    intro objs h
    refine ih (step_good op h fun c hc hb => ?_)
    by_contra hm
    obtain ⟨m, hm⟩ := Option.ne_none_iff_exists'.mp hm
    obtain ⟨b, h1, -⟩ := h c (List.mem_of_getElem? hc) m hm
    rw [hb] at h1
    cases h1

theorem run_append (create : S → Except PyErr M) (a b : List (ContainerOp S)) (objs : List (Container S M)) :
    (runContainers create objs (a ++ b)).2 = (runContainers create (runContainers create objs a).2 b).2 := by
  induction a generalizing objs with
  | nil => rfl
  | cons op a ih => exact ih _

/-- The result of using the mechanism of object `i` after a history. -/
def useAfter (create : S → Except PyErr M) (ops : List (ContainerOp S)) (i : ℕ) : ContainerOut M :=
  (ContainerOp.step create (runContainers create fresh ops).2 (.use i)).1

/-- The number of objects after a history. -/
def objectsAfter (create : S → Except PyErr M) (ops : List (ContainerOp S)) : ℕ := (runContainers create fresh ops).2.length

theorem use_iff {create : S → Except PyErr M} {objs : List (Container S M)} (h : Good create objs) (i : ℕ) (c : Container S M)
    (hi : objs[i]? = some c) (m : M) :
    (ContainerOp.step create objs (.use i)).1 = .mechanism m ↔ ∃ b, c.budget = some b ∧ create b = .ok m := by
  have hg := (getMechanism_good (h c (List.mem_of_getElem? hi))).2 m
  rw [← hg]
  simp only [ContainerOp.step, hi]
  rcases getMechanism create c with ⟨r, c'⟩
  cases r <;> simp

theorem fresh_good (create : S → Except PyErr M) : Good create fresh := by
  intro c hc m hm
  simp only [fresh, List.mem_singleton] at hc
  subst hc
  cases hm

/-- **C82** (pickling).  A combiner can be pickled at any time, also after its mechanism has been used.  The copy is a new object which can
use a mechanism exactly if the pickled object could at that moment, whatever happens later: a copy made before `compute_budgets`
fails for ever, also after `compute_budgets`. -/
theorem C82_copy_knows_the_budget_of_its_moment (create : S → Except PyErr M) (before later : List (ContainerOp S)) (i : ℕ)
    (hi : i < objectsAfter create before) :
    (ContainerOp.step create (runContainers create fresh before).2 (.copy i)).1 = .done ∧
      objectsAfter create (before ++ [.copy i]) = objectsAfter create before + 1 ∧
      ∀ m, useAfter create (before ++ .copy i :: later) (objectsAfter create before) = .mechanism m ↔
        useAfter create before i = .mechanism m := by
  unfold objectsAfter at hi ⊢
  have hgood : Good create (runContainers create fresh before).2 := run_good before (fresh_good create)
  have hlen : 1 ≤ (runContainers create fresh before).2.length := by
    simpa [fresh] using run_nonempty create before fresh
  have hstep : ContainerOp.step create (runContainers create fresh before).2 (.copy i)
      = (.done, (runContainers create fresh before).2 ++ [getState (runContainers create fresh before).2[i]]) := by
    simp only [ContainerOp.step, List.getElem?_eq_getElem hi, pickle, getState, Option.isSome_none, Bool.false_eq_true, if_false]
  refine ⟨by rw [hstep], ?_, fun m => ?_⟩
  · rw [run_append]
    simp only [runContainers, hstep]
    simp
  · have hrun : (runContainers create fresh (before ++ .copy i :: later)).2
        = (runContainers create ((runContainers create fresh before).2 ++ [getState (runContainers create fresh before).2[i]])
          later).2 := by
      rw [run_append]
      simp only [runContainers, hstep]
    obtain ⟨c', h1, h2⟩ := run_budget create later (runContainers create fresh before).2.length hlen
      ((runContainers create fresh before).2 ++ [getState (runContainers create fresh before).2[i]])
      (getState (runContainers create fresh before).2[i]) (by simp)
    unfold useAfter
    rw [use_iff (run_good _ (fresh_good create)) _ c' (by rw [hrun]; exact h1), use_iff hgood i _ (List.getElem?_eq_getElem hi), h2]
    rfl

theorem run_original (create : S → Except PyErr M) (ops : List (ContainerOp S)) : ∀ (objs : List (Container S M)) (c : Container S M),
    objs[0]? = some c → ∃ c', (runContainers create objs ops).2[0]? = some c' ∧
      c'.budget = (if c.budget.isSome then c.budget else firstBudget ops) := by
  induction ops with
  | nil => intro objs c h; refine ⟨c, h, ?_⟩; cases hb : c.budget <;> simp [firstBudget]
  | cons op ops ih =>
    intro objs c h
    have key : ∃ c1, (op.step create objs).2[0]? = some c1 ∧
        (if c1.budget.isSome then c1.budget else firstBudget ops)
          = (if c.budget.isSome then c.budget else firstBudget (op :: ops)) := by
      cases op with
      | compute b =>
        simp only [ContainerOp.step, h, firstBudget]
        cases hb : c.budget with
        | some x => exact ⟨c, by simpa using h, by simp [hb]⟩
        | none => exact ⟨{ c with budget := some b }, by simp [(List.getElem?_eq_some_iff.mp h).1], by simp⟩
      | use j =>
        simp only [ContainerOp.step, firstBudget]
        rcases hj : objs[j]? with _ | d
        · exact ⟨c, h, rfl⟩
        · have hb : (getMechanism create d).2.budget = d.budget := by
            unfold getMechanism
            split
            · rfl
            · split
              · rfl
              · split <;> rfl
          have : ∃ c', (objs.set j (getMechanism create d).2)[0]? = some c' ∧ c'.budget = c.budget := by
            by_cases hij : j = 0
            · subst hij
              rw [h] at hj
              cases hj
              exact ⟨_, List.getElem?_set_self (List.getElem?_eq_some_iff.mp h).1, hb⟩
            · exact ⟨c, by rw [List.getElem?_set_ne hij]; exact h, rfl⟩
          rcases hg : getMechanism create d with ⟨r, d'⟩
          rw [hg] at this
          obtain ⟨c', t1, t2⟩ := this
          simp only [hg]
          cases r <;> exact ⟨c', t1, by rw [t2]⟩
      | copy j =>
        simp only [ContainerOp.step, firstBudget]
        rcases hj : objs[j]? with _ | d
        · exact ⟨c, h, rfl⟩
        · simp only [pickle, getState, Option.isSome_none, Bool.false_eq_true, if_false]
          exact ⟨c, by rw [List.getElem?_append_left (List.getElem?_eq_some_iff.mp h).1]; exact h, rfl⟩
    obtain ⟨c1, k1, k2⟩ := key
    obtain ⟨c', r1, r2⟩ := ih _ c1 k1
    exact ⟨c', r1, r2.trans k2⟩

/-- **C82** (the original).  After any history the original combiner returns the mechanism of the budget of the first
`compute_budgets`, and fails if there was none: failed attempts before are not remembered. -/
theorem C82_original_follows_the_accountant (create : S → Except PyErr M) (ops : List (ContainerOp S)) (m : M) :
    useAfter create ops 0 = .mechanism m ↔ ∃ b, firstBudget ops = some b ∧ create b = .ok m := by
  obtain ⟨c, h1, h2⟩ := run_original create ops (fresh : List (Container S M)) ⟨none, none⟩ rfl
  unfold useAfter
  rw [use_iff (run_good ops (fresh_good create)) 0 c h1, h2]
  simp

/-! ### Examples -/

/-- Two results arrive in a process that has already made one of the types. -/
example : (runTuples (fun _ _ => true) [.receive ("MetricsTuple", ["sum", "count"], [5, 2]),
      .receive ("MetricsTuple", ["count"], [3]), (.create "MetricsTuple" ["count"] [7] : TupleOp ℕ)]).2
    = [⟨⟨1, "MetricsTuple", ["sum", "count"]⟩, [5, 2]⟩, ⟨⟨0, "MetricsTuple", ["count"]⟩, [3]⟩,
       ⟨⟨0, "MetricsTuple", ["count"]⟩, [7]⟩] := by decide +kernel

example : (⟨⟨1, "MetricsTuple", ["sum", "count"]⟩, [5, 2]⟩ : Instance ℕ).attribute "count" = some 2 := by decide +kernel

/-- Copy `1` is made too early, copy `2` in time. -/
example : (runContainers (fun b : ℕ => .ok (b + 100)) fresh
      [.use 0, .copy 0, .compute 7, .use 0, .copy 0, .use 1, .use 2, .compute 9, .use 2]).1
    = [.failed .assertionError, .done, .done, .mechanism 107, .done, .failed .assertionError, .mechanism 107, .failed .exception,
       .mechanism 107] := by decide +kernel

end PDP.Serialise
