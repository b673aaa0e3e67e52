import Std.Data.String.ToNat
import Mathlib.Data.List.Nodup
import Mathlib.Data.List.Dedup
import Mathlib.Data.List.Perm.Subperm
import Mathlib.Tactic.Set
import Mathlib.Data.List.Basic

/-!
# Unique stage names (`pipeline_backend.py:198-220` `UniqueLabelsGenerator`)

The set of used labels is a list without repetitions in use.  `itertools.count(1)` is an unbounded loop; `search`
runs it for a number of iterations and the theorem shows that it stops.
-/

namespace PDP.Backend

/-- `UniqueLabelsGenerator`: `_labels` and `_suffix`. -/
structure Labels where
  used : List String
  suffix : String

/-- `pipeline_backend.py:201-203` `__init__`. -/
def Labels.new (suffix : String) : Labels := ⟨[], if suffix = "" then "" else "_" ++ suffix⟩

/-- `label_candidate = f"{label}_{i}{self._suffix}"` (`pipeline_backend.py:218`). -/
def candidate (label suffix : String) (i : ℕ) : String := label ++ "_" ++ i.repr ++ suffix

/-- `for i in itertools.count(i)` (`pipeline_backend.py:217-220`), stopped after `fuel` iterations. -/
def search (g : Labels) (label : String) : (fuel i : ℕ) → Option (String × Labels)
  | 0, _ => none
  | fuel + 1, i =>
    if candidate label g.suffix i ∈ g.used then search g label fuel (i + 1)
    else some (candidate label g.suffix i, { g with used := candidate label g.suffix i :: g.used })

/-- `if not label: label = "UNDEFINED_STAGE_NAME"` (`pipeline_backend.py:212-213`). -/
def nameOf : Option String → String
  | none => "UNDEFINED_STAGE_NAME"
  | some l => if l = "" then "UNDEFINED_STAGE_NAME" else l

/-- `pipeline_backend.py:211-220` `unique`, with the loop stopped after `fuel` iterations. -/
def unique (fuel : ℕ) (g : Labels) (request : Option String) : Option (String × Labels) :=
  let label := nameOf request
  if label ++ g.suffix ∈ g.used then search g label fuel 1
  else some (label ++ g.suffix, { g with used := (label ++ g.suffix) :: g.used })

/-- The labels for a sequence of requests on one backend. -/
def labelsFor (fuel : ℕ) : Labels → List (Option String) → Option (List String)
  | _, [] => some []
  | g, r :: rs => do
    let (l, g) ← unique fuel g r
    let ls ← labelsFor fuel g rs
    return l :: ls

/-! ### Lemmas -/

theorem repr_inj {a b : ℕ} (h : a.repr = b.repr) : a = b := by
  have := congrArg String.toNat? h
  simpa using this

theorem candidate_inj {l s : String} {i j : ℕ} (h : candidate l s i = candidate l s j) : i = j := by
  unfold candidate at h
  have h' := congrArg String.toList h
  simp only [String.toList_append] at h'
  have h'' := List.append_cancel_right h'
  have h3 := List.append_cancel_left h''
  exact repr_inj (String.toList_injective h3)

theorem search_spec (g : Labels) (label : String) (fuel i : ℕ) (r : String × Labels) (h : search g label fuel i = some r) :
    r.1 ∉ g.used ∧ r.2 = { g with used := r.1 :: g.used } ∧ ∃ j, i ≤ j ∧ r.1 = candidate label g.suffix j ∧
      ∀ k, i ≤ k → k < j → candidate label g.suffix k ∈ g.used := by
  induction fuel generalizing i with
  | zero => simp [search] at h
  | succ n ih =>
    unfold search at h
    split at h
    · rename_i hm
      obtain ⟨h1, h2, j, h3, h4, h5⟩ := ih (i + 1) h
      refine ⟨h1, h2, j, by omega, h4, fun k hk hkj => ?_⟩
      rcases Nat.eq_or_lt_of_le hk with rfl | hlt
      · exact hm
      · exact h5 k hlt hkj
    · rename_i hm
      obtain rfl := Option.some.inj h
      exact ⟨hm, rfl, i, Nat.le_refl _, rfl, fun k h1 h2 => by omega⟩

theorem search_none (g : Labels) (label : String) (fuel i : ℕ) (h : search g label fuel i = none) :
    ∀ k, i ≤ k → k < i + fuel → candidate label g.suffix k ∈ g.used := by
  induction fuel generalizing i with
  | zero => intro k h1 h2; omega
  | succ n ih =>
    unfold search at h
    split at h
    · rename_i hm
      intro k hk hlt
      rcases Nat.eq_or_lt_of_le hk with rfl | hlt'
      · exact hm
      · exact ih (i + 1) h k hlt' (by omega)
    · cases h

theorem search_stops (g : Labels) (label : String) (fuel i : ℕ) (hf : g.used.length < fuel) :
    ∃ r, search g label fuel i = some r := by
  cases h : search g label fuel i with
  | some r => exact ⟨r, rfl⟩
  | none =>
    exfalso
    have hall := search_none g label fuel i h
    have hnd : ((List.range fuel).map fun k => candidate label g.suffix (i + k)).Nodup := by
      apply List.nodup_range.map_on
      intro a _ b _ hab
      have := candidate_inj hab
      omega
    have hsub : ((List.range fuel).map fun k => candidate label g.suffix (i + k)) ⊆ g.used := by
      intro x hx
      obtain ⟨k, hk, rfl⟩ := List.mem_map.mp hx
      have := List.mem_range.mp hk
      exact hall (i + k) (by omega) (by omega)
    have := (hnd.subperm hsub).length_le
    simp at this
    omega

theorem unique_spec {fuel : ℕ} {g : Labels} {q : Option String} {r : String × Labels} (h : unique fuel g q = some r) :
    r.1 ∉ g.used ∧ r.2 = { g with used := r.1 :: g.used } := by
  unfold unique at h
  dsimp only at h
  split at h
  · obtain ⟨h1, h2, -⟩ := search_spec g _ fuel 1 r h
    exact ⟨h1, h2⟩
  · rename_i hm
    obtain rfl := Option.some.inj h
    exact ⟨hm, rfl⟩

theorem labelsFor_spec (fuel : ℕ) (rs : List (Option String)) (g : Labels) (ls : List String)
    (h : labelsFor fuel g rs = some ls) : ls.length = rs.length ∧ ls.Nodup ∧ ∀ l ∈ ls, l ∉ g.used := by
  induction rs generalizing g ls with
  | nil => simp [labelsFor] at h; subst h; simp
  | cons q rs ih =>
    unfold labelsFor at h
    cases hu : unique fuel g q with
    | none => simp [hu] at h
    | some r =>
      cases hr : labelsFor fuel r.2 rs with
      | none => simp [hu, hr] at h
      | some ls' =>
        simp [hu, hr] at h
        subst h
        obtain ⟨h1, h2, h3⟩ := ih _ _ hr
        obtain ⟨u1, u2⟩ := unique_spec hu
        rw [u2] at h3
        refine ⟨by simp [h1], ?_, ?_⟩
        · rw [List.nodup_cons]
          exact ⟨fun hm => (h3 _ hm) (by simp), h2⟩
        · intro l hl
          rcases List.mem_cons.mp hl with rfl | hl
          · exact u1
          · intro hu'
            exact h3 l hl (by simp [hu'])

theorem labelsFor_some (fuel : ℕ) (rs : List (Option String)) (g : Labels) (h : g.used.length + rs.length < fuel + 1) :
    ∃ ls, labelsFor fuel g rs = some ls := by
  induction rs generalizing g with
  | nil => exact ⟨[], rfl⟩
  | cons q rs ih =>
    have hu : ∃ r, unique fuel g q = some r := by
      unfold unique
      dsimp only
      split
      · simp only [List.length_cons] at h
        exact search_stops g _ fuel 1 (by omega)
      · exact ⟨_, rfl⟩
    obtain ⟨r, hr⟩ := hu
    obtain ⟨ls, hls⟩ := ih r.2 (by rw [(unique_spec hr).2]; simp only [List.length_cons] at h ⊢; omega)
    exact ⟨r.1 :: ls, by simp [labelsFor, hr, hls]⟩

/-- Once found, more iterations do not change the label. -/
theorem search_mono (g : Labels) (label : String) (fuel i extra : ℕ) (r) (h : search g label fuel i = some r) :
    search g label (fuel + extra) i = some r := by
  induction fuel generalizing i with
  | zero => simp [search] at h
  | succ n ih =>
    rw [show n + 1 + extra = (n + extra) + 1 by omega]
    unfold search at h ⊢
    split at h
    · rename_i hm; rw [if_pos hm]; exact ih _ h
    · rename_i hm; rw [if_neg hm]; exact h

/-! ### Properties -/

/-- C37: for every sequence of requested names, the loops end (after at most as many iterations as there were
requests) and the labels returned are pairwise distinct, one per request. -/
theorem C37_labels_distinct (suffix : String) (requests : List (Option String)) (fuel : ℕ)
    (hf : requests.length ≤ fuel) :
    ∃ labels, labelsFor fuel (Labels.new suffix) requests = some labels ∧
      labels.length = requests.length ∧ labels.Nodup := by
  obtain ⟨ls, hls⟩ := labelsFor_some fuel requests (Labels.new suffix) (by simp [Labels.new]; omega)
  obtain ⟨h1, h2, -⟩ := labelsFor_spec _ _ _ _ hls
  exact ⟨ls, hls, h1, h2⟩

/-- C37: allowing the loops to run longer changes nothing. -/
theorem C37_fuel_is_irrelevant (suffix : String) (requests : List (Option String)) (fuel extra : ℕ)
    (hf : requests.length ≤ fuel) :
    labelsFor (fuel + extra) (Labels.new suffix) requests = labelsFor fuel (Labels.new suffix) requests := by
  have hu : ∀ g q r, unique fuel g q = some r → unique (fuel + extra) g q = some r := by
    intro g q r h
    unfold unique at h ⊢
    dsimp only at h ⊢
    split at h
    · rename_i hm; rw [if_pos hm]; exact search_mono _ _ _ _ _ _ h
    · rename_i hm; rw [if_neg hm]; exact h
  have : ∀ (rs : List (Option String)) (g : Labels) ls, labelsFor fuel g rs = some ls →
      labelsFor (fuel + extra) g rs = some ls := by
    intro rs
    induction rs with
    | nil => intro g ls h; exact h
    | cons q rs ih =>
      intro g ls h
      unfold labelsFor at h ⊢
      cases h1 : unique fuel g q with
      | none => simp [h1] at h
      | some r =>
        cases h2 : labelsFor fuel r.2 rs with
        | none => simp [h1, h2] at h
        | some ls' =>
          simp [h1, h2] at h
          subst h
          simp [hu _ _ _ h1, ih _ _ h2]
  obtain ⟨ls, hls, -⟩ := C37_labels_distinct suffix requests fuel hf
  rw [hls, this _ _ _ hls]

/-- C37: a requested name that was not handed out before is returned as it is (with the backend's suffix), and
otherwise the returned label is the name with the smallest free number. -/
theorem C37_label_of_request (fuel : ℕ) (g : Labels) (name : String) (hname : name ≠ "") (l : String) (g' : Labels)
    (h : unique fuel g (some name) = some (l, g')) :
    (name ++ g.suffix ∉ g.used → l = name ++ g.suffix) ∧
    (name ++ g.suffix ∈ g.used → ∃ j, 1 ≤ j ∧ l = name ++ "_" ++ j.repr ++ g.suffix ∧
      ∀ k, 1 ≤ k → k < j → name ++ "_" ++ k.repr ++ g.suffix ∈ g.used) := by
  unfold unique at h
  simp only [nameOf, if_neg hname] at h
  constructor
  · intro hm
    rw [if_neg hm] at h
    simp only [Option.some.injEq, Prod.mk.injEq] at h
    exact h.1.symm
  · intro hm
    rw [if_pos hm] at h
    obtain ⟨-, -, j, h1, h2, h3⟩ := search_spec g name fuel 1 _ h
    exact ⟨j, h1, h2, h3⟩

theorem unique_endsWith {fuel : ℕ} {g : Labels} {q : Option String} {r : String × Labels}
    (h : unique fuel g q = some r) : g.suffix.toList <:+ r.1.toList ∧ r.2.suffix = g.suffix := by
  have h2 := (unique_spec h).2
  refine ⟨?_, by rw [h2]⟩
  unfold unique at h
  dsimp only at h
  split at h
  · obtain ⟨-, -, j, -, h4, -⟩ := search_spec g _ fuel 1 r h
    rw [h4, candidate, String.toList_append]
    exact List.suffix_append _ _
  · obtain rfl := Option.some.inj h
    simp [String.toList_append]

theorem labelsFor_endsWith (fuel : ℕ) (rs : List (Option String)) (g : Labels) (ls : List String)
    (h : labelsFor fuel g rs = some ls) : ∀ l ∈ ls, g.suffix.toList <:+ l.toList := by
  induction rs generalizing g ls with
  | nil => simp [labelsFor] at h; subst h; simp
  | cons q rs ih =>
    unfold labelsFor at h
    cases hu : unique fuel g q with
    | none => simp [hu] at h
    | some r =>
      cases hr : labelsFor fuel r.2 rs with
      | none => simp [hu, hr] at h
      | some ls' =>
        simp [hu, hr] at h
        subst h
        have h1 := unique_endsWith hu
        intro l hl
        rcases List.mem_cons.mp hl with rfl | hl
        · exact h1.1
        · have := ih _ _ hr l hl
          rwa [h1.2] at this

/-- C37: two backends on one pipeline with different suffixes of the same length never produce the same label. -/
theorem C37_suffixes_separate_backends (s t : String) (hne : s ≠ t) (hlen : s.length = t.length)
    (rs qs : List (Option String)) (fuel : ℕ) (ls ms : List String)
    (h1 : labelsFor fuel (Labels.new s) rs = some ls) (h2 : labelsFor fuel (Labels.new t) qs = some ms) :
    ∀ l ∈ ls, l ∉ ms := by
  intro l hl hm
  have a := labelsFor_endsWith _ _ _ _ h1 l hl
  have b := labelsFor_endsWith _ _ _ _ h2 l hm
  have hs : s ≠ "" := by
    rintro rfl
    have : t.toList = [] := List.eq_nil_of_length_eq_zero (by simpa using hlen.symm)
    exact hne (String.toList_injective (by simpa using this.symm))
  have ht : t ≠ "" := by
    rintro rfl
    have : s.toList = [] := List.eq_nil_of_length_eq_zero (by simpa using hlen)
    exact hne (String.toList_injective (by simpa using this))
  simp only [Labels.new, if_neg hs, if_neg ht, String.toList_append] at a b
  have hl2 : ("_".toList ++ s.toList).length = ("_".toList ++ t.toList).length := by
    simp only [List.length_append, String.length_toList, hlen]
  have := List.suffix_of_suffix_length_le a b (by omega)
  have := this.eq_of_length hl2
  exact hne (String.toList_injective (List.append_cancel_left this))

/-- C37 (gap): distinct suffixes alone do not keep the labels of two backends apart. -/
theorem C37_suffixes_may_collide : ∃ (s t : String) (rs qs : List (Option String)) (ls ms : List String) (l : String),
    s ≠ t ∧ labelsFor 2 (Labels.new s) rs = some ls ∧ labelsFor 2 (Labels.new t) qs = some ms ∧ l ∈ ls ∧ l ∈ ms :=
  ⟨"", "1", [some "map", some "map"], [some "map"], ["map", "map_1"], ["map_1"], "map_1", by decide,
    by decide +kernel, by decide +kernel, by decide, by decide⟩

/-- Names that look generated, repeated names and missing names. -/
example : labelsFor 6 (Labels.new "s") [some "a", some "a_1", some "a", some "a", none, some ""]
    = some ["a_s", "a_1_s", "a_2_s", "a_3_s", "UNDEFINED_STAGE_NAME_s", "UNDEFINED_STAGE_NAME_1_s"] := by
  decide +kernel

end PDP.Backend
