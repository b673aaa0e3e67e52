import Verif.EndToEnd.Loss
import Verif.Engine.OneShot

/-!
# Partitions released without selection (C80)

With `public_partitions_already_filtered=True` and no public partitions, `aggregate` releases every partition of the data
(`dp_engine.py:162-164`).
-/

set_option linter.unusedSectionVars false

namespace PDP.EndToEnd

open PDP PDP.Engine PDP.Approx MeasureTheory
open PDP.Engine.AddNoise (specOf)

variable {R P K : Type} [DecidableEq P] [DecidableEq K]

/-- What is released if partitions are neither public nor selected. -/
theorem unselected_releases {sigma : ℝ → ℝ → ℝ → ℝ} {s : Specs} {ε δ : ℕ → ℝ} {p : Params}
    (hs : SupportedAggregate p (some ([] : List K))) (hpf : p.publicFiltered = true) {fmt : ℚ → String} {rs rs' : List Request}
    {b : Built} {key : R → K} {value : R → ℚ} (hb : build fmt rs (.aggregate p none key value) = (.ok b, rs'))
    (hbo : BuiltOk s ε δ p.noiseKind b) (env : Env K) (henv : env.Lawful) (pid : R → P) (data : List R)
    (hw : (Call.aggregate p none key value).Within pid data) :
    ∃ L, evalCall sigma s env pid b data (.aggregate p none key value) = .ok L ∧
      (∀ k, k ∈ L.map Candidate.key ↔ k ∈ data.map key) ∧ ∀ c ∈ L, c.gate = .always := by
  obtain ⟨-, hw2, -⟩ := hw
  obtain ⟨⟨rs'', hcreate⟩, hsel⟩ := build_aggregate hb
  have hok := (parts_ok_any hs.any hcreate).1
  have hpt : p.postThresholding = false := by
    by_contra h
    exact absurd (hs.thresholding (by simpa using h)).1 (by simp)
  have hselN : b.selection = none := by
    have : selectsPrivately p (none : Option (List K)) = false := by simp [selectsPrivately, hpf]
    rw [this] at hsel
    simpa using hsel
  obtain ⟨out, entries, h1, h2, h3, -, -, -, h7, -⟩ := output_entries_keys env.backend henv.backend p hs.bounds
    (combinersOf sigma p b.parts) (env.combine (Combiner.compound _).merge) (henv.combine _) (fun _ _ => true) none
    (extract pid key value data) (fun _ ps h => by cases h) (fun h => (hw2 h).1) (fun h _ => (hw2 h).2)
  have hcand : ∀ e ∈ out, candidate sigma s p b e = .ok ⟨e.1, .always,
      (b.parts.flatMap (documented p (extract pid key value data) e.1)).map (Documented.noisy sigma p.noiseKind ε δ e.1)⟩ := by
    intro e he
    have hnum := evalParts_of sigma s p e.1 b.parts e.2 (fun part => (documented p (extract pid key value data) e.1
      part).map (Documented.noisy sigma p.noiseKind ε δ e.1)) (by
        intro i part v hv hpart hi
        exact part_numbers env.backend henv.backend hs.bounds (combinersOf sigma p b.parts) (henv.combine _) _
          (fun _ ps h => by cases h) hw2 (fun h => absurd rfl h) h1 e he part (hok part hpart) (hbo.parts part hpart) i v hv hi)
    unfold candidate
    rw [hnum, ← List.map_flatMap]
    simp only [gateOf, hselN, hpt, Bool.false_eq_true, if_false]
  refine ⟨out.map fun e => ⟨e.1, .always,
      (b.parts.flatMap (documented p (extract pid key value data) e.1)).map (Documented.noisy sigma p.noiseKind ε δ e.1)⟩,
    ?_, ?_, ?_⟩
  · simp only [evalCall]
    rw [h1]
    exact mapM_ok' _ _ _ hcand
  · intro k
    rw [List.map_map, ← extract_keys pid key value data]
    refine (h7 (fun _ _ => rfl) k).trans ?_
    have hent : (∃ x ∈ entries, x.1.2 = k) ↔ k ∈ (extract pid key value data).map fun r => r.2.1 := by
      rw [← show (relevant none (extract pid key value data)) = extract pid key value data from rfl,
        ← (h2.map fun r => r.2.1).mem_iff]
      simp only [rowsBehind, List.mem_map, List.mem_flatMap]
      constructor
      · rintro ⟨x, hx, rfl⟩
        obtain ⟨v, hv⟩ := List.exists_mem_of_ne_nil _ (h3 x hx)
        exact ⟨(x.1.1, x.1.2, v), ⟨x, hx, v, hv, rfl⟩, rfl⟩
      · rintro ⟨r, ⟨x, hx, v, hv, rfl⟩, rfl⟩
        exact ⟨x, hx, rfl⟩
    rw [hent]
    simp
  · intro c hc
    obtain ⟨e, -, rfl⟩ := List.mem_map.mp hc
    rfl

/-- A partition that is released with certainty from one data set and never from the other. -/
theorem presence_reveals (lib : Library) (X Y : List (Candidate K)) (k : K) (hx : k ∈ X.map Candidate.key)
    (x3 : ∀ c ∈ X, c.gate = .always) (hy : k ∉ Y.map Candidate.key) {e' d' : ℝ}
    (hind : Indist e' d' (observedLaw lib {(0, k)} ∅ [X]) (observedLaw lib {(0, k)} ∅ [Y])) : 1 ≤ d' := by
  let v : ({(0, k)} : Finset (ℕ × K)) := ⟨(0, k), by simp⟩
  have hdx : ∀ w : ({(0, k)} : Finset (ℕ × K)), decisionLaw lib (([X] : List _).getD w.1.1 []) w.1.2 = Measure.dirac (true, 0) := by
    rintro ⟨w, hw⟩
    obtain rfl : w = (0, k) := by simpa using hw
    show decisionLaw lib X k = _
    unfold decisionLaw
    rcases hf : X.find? (fun c => c.key = k) with _ | c
    · obtain ⟨c, hc, hck⟩ := List.mem_map.mp hx
      have := List.find?_eq_none.mp hf c hc
      simp [hck] at this
    · rw [hf]
      dsimp only
      rw [x3 c (List.mem_of_find?_eq_some hf)]
      rfl
  have hdy : ∀ w : ({(0, k)} : Finset (ℕ × K)), decisionLaw lib (([Y] : List _).getD w.1.1 []) w.1.2 = Measure.dirac (false, 0) := by
    rintro ⟨w, hw⟩
    obtain rfl : w = (0, k) := by simpa using hw
    show decisionLaw lib Y k = _
    unfold decisionLaw
    rcases hf : Y.find? (fun c => c.key = k) with _ | c
    · rw [hf]
    · exfalso
      have hck : c.key = k := by simpa using List.find?_some hf
      exact hy (List.mem_map.mpr ⟨c, List.mem_of_find?_eq_some hf, hck⟩)
  have hA : MeasurableSet {f : (({(0, k)} : Finset (ℕ × K)) → Bool × ℝ) ×
        (({(0, k)} : Finset (ℕ × K)) × (∅ : Finset (ℕ × ℕ)) → ℝ) | (f.1 v).1 = true} := by
    have : Measurable fun f : (({(0, k)} : Finset (ℕ × K)) → Bool × ℝ) ×
      (({(0, k)} : Finset (ℕ × K)) × (∅ : Finset (ℕ × ℕ)) → ℝ) => (f.1 v).1 :=
      measurable_fst.comp ((measurable_pi_apply v).comp measurable_fst)
    exact this (measurableSet_singleton true)
  have law : ∀ (Z : List (List (Candidate K))) (z : Bool),
      (∀ w : ({(0, k)} : Finset (ℕ × K)), decisionLaw lib (Z.getD w.1.1 []) w.1.2 = Measure.dirac (z, 0)) →
      observedLaw lib {(0, k)} ∅ Z {f | (f.1 v).1 = true} = if z then 1 else 0 := by
    intro Z z hz
    unfold observedLaw
    have h1 : (Measure.pi fun w : ({(0, k)} : Finset (ℕ × K)) => decisionLaw lib (Z.getD w.1.1 []) w.1.2)
        = Measure.dirac (fun _ => ((z, 0) : Bool × ℝ)) := by
      rw [show (fun w : ({(0, k)} : Finset (ℕ × K)) => decisionLaw lib (Z.getD w.1.1 []) w.1.2)
        = fun _ => Measure.dirac (z, 0) from funext hz]
      exact pi_dirac _
    have : ∀ i : ({(0, k)} : Finset (ℕ × K)) × (∅ : Finset (ℕ × ℕ)),
        IsProbabilityMeasure (numberLaw (Z.getD i.1.1.1 []) i.1.1.2 i.2.1) := fun i =>
      (Finset.notMem_empty _ i.2.2).elim
    have : IsProbabilityMeasure (Measure.pi fun i : ({(0, k)} : Finset (ℕ × K)) × (∅ : Finset (ℕ × ℕ)) =>
        numberLaw (Z.getD i.1.1.1 []) i.1.1.2 i.2.1) := inferInstance
    rw [h1, Measure.dirac_prod, Measure.map_map measurable_hide measurable_prodMk_left,
      Measure.map_apply (measurable_hide.comp measurable_prodMk_left) hA]
    cases z
    · rw [show (hide ∘ Prod.mk fun _ => ((false, 0) : Bool × ℝ)) ⁻¹' {f : (({(0, k)} : Finset (ℕ × K)) → Bool × ℝ) ×
        (({(0, k)} : Finset (ℕ × K)) × (∅ : Finset (ℕ × ℕ)) → ℝ) | (f.1 v).1 = true} = ∅ by ext f; simp [hide]]
      simp
    · rw [show (hide ∘ Prod.mk fun _ => ((true, 0) : Bool × ℝ)) ⁻¹' {f : (({(0, k)} : Finset (ℕ × K)) → Bool × ℝ) ×
        (({(0, k)} : Finset (ℕ × K)) × (∅ : Finset (ℕ × ℕ)) → ℝ) | (f.1 v).1 = true} = Set.univ by ext f; simp [hide]]
      simp
  have h5 := hind _ hA
  rw [law [X] true hdx, law [Y] false hdy] at h5
  simpa using h5

/-- **C80** (partitions without selection).  `aggregate` with `public_partitions_already_filtered=True` and without public
partitions accepts the call and releases every partition of the data.  If a partition has only rows of the user `u`, then its
presence in the result reveals the user with certainty: no `(e', d')` with `d' < 1` holds, whatever the budget is. -/
theorem C80_unselected_partitions_reveal_users (fmt : ℚ → String) (lib : Library) {p : Params}
    (hs : SupportedAggregate p (some ([] : List K))) (hm : p.metrics ≠ []) (hpf : p.publicFiltered = true) {key : R → K}
    {value : R → ℚ} {e d : ℚ} {num ws s0} (h0 : Budget.init e d num ws = .ok s0) (hd : p.noiseKind = .gaussian → 0 < d)
    (ha : AnnouncedCalls num ws [Call.aggregate p none key value]) (env : ℕ → Env K) (henv : ∀ j, (env j).Lawful) (pid : R → P)
    (data : List R) (hw : (Call.aggregate p none key value).Within pid data) (u : P) (k : K) (hk : k ∈ data.map key)
    (hu : ∀ r ∈ data, key r = k → pid r = u) :
    ∃ bs ops, planCalls fmt [] [Call.aggregate p none key value] = .ok (bs, ops) ∧
      (Budget.step (Budget.run s0 ops).1 .compute).2 = .unit ∧
      let s := specOf (Budget.step (Budget.run s0 ops).1 .compute).1
      ∃ L L', evalCalls lib.sigma s env pid data 0 [.aggregate p none key value] bs = .ok L ∧
        evalCalls lib.sigma s env pid (removeId pid u data) 0 [.aggregate p none key value] bs = .ok L' ∧
        ∀ e' d' : ℝ, Indist e' d' (observedLaw lib {(0, k)} ∅ L) (observedLaw lib {(0, k)} ∅ L') → 1 ≤ d' := by
  obtain ⟨bs, ops, h1, h2, h3, h4⟩ := planned_budgets fmt [Call.aggregate p (some ([] : List K)) key value]
    (by intro c hc; rw [List.mem_singleton] at hc; subst hc; exact hs)
    (by
      intro p' pub key' value' h
      simp only [List.mem_singleton, Call.aggregate.injEq] at h
      rw [h.1]; exact hm) h0 (by
      rintro ⟨c, hc, h⟩
      rw [List.mem_singleton] at hc
      subst hc
      rcases h with h | h
      · exact hd h
      · cases h)
    ⟨fun n hn => ⟨(ha.1 n hn).1, fun c hc => by
      rw [List.mem_singleton] at hc; subst hc; exact (ha.1 n hn).2 (Call.aggregate p none key value) (by simp)⟩,
      fun l hl => ha.2 l hl⟩
  obtain ⟨b, rfl⟩ := List.length_eq_one_iff.mp h2
  have hsame : build fmt [] (Call.aggregate p (some ([] : List K)) key value) = build fmt [] (Call.aggregate p none key value) := by
    have e1 : selectsPrivately p (none : Option (List K)) = false := by simp [selectsPrivately, hpf]
    have e2 : selectsPrivately p (some ([] : List K)) = false := by simp [selectsPrivately]
    simp only [build, e1, e2]
  have hplan : planCalls fmt [] [Call.aggregate p none key value] = .ok ([b], ops) := by
    rw [← h1]
    simp only [planCalls, hsame]
    rfl
  have hb : ∃ rs', build fmt [] (Call.aggregate p none key value) = (.ok b, rs') := by
    rcases hx : build fmt [] (Call.aggregate p none key value) with ⟨r, rs'⟩
    rw [planCalls, hx] at hplan
    cases r with
    | error e => simp at hplan
    | ok b' =>
      simp only [planCalls, Except.ok.injEq, Prod.mk.injEq, List.cons.injEq, and_true] at hplan
      exact ⟨rs', by rw [hplan.1]⟩
  obtain ⟨rs', hb⟩ := hb
  refine ⟨[b], ops, hplan, h3, ?_⟩
  intro s
  have hbo := h4 _ (by simp : (Call.aggregate p (some ([] : List K)) key value, b) ∈ _)
  have hw' : (Call.aggregate p none key value).Within pid (removeId pid u data) := by
    have hsub : (extract pid key value (removeId pid u data)).Sublist (extract pid key value data) :=
      (List.filter_sublist).map _
    exact ⟨fun _ ps h => (by cases h), fun h => ⟨withinPartitionBounds_sublist hsub (hw.2.1 h).1,
      withinRowBounds_sublist hsub (hw.2.1 h).2⟩, fun h => absurd rfl h⟩
  have e0 : (env 0).Lawful := henv 0
  obtain ⟨X, x1, x2, x3⟩ := unselected_releases (sigma := lib.sigma) hs hpf hb hbo (env 0) e0 pid data hw
  obtain ⟨Y, y1, y2, y3⟩ := unselected_releases (sigma := lib.sigma) hs hpf hb hbo (env 0) e0 pid (removeId pid u data) hw'
  refine ⟨[X], [Y], by simp only [evalCalls, s, x1], by simp only [evalCalls, s, y1], ?_⟩
  refine fun e' d' => presence_reveals lib X Y k ((x2 k).mpr hk) x3 ?_
  intro hk'
  obtain ⟨r, hr, hrk⟩ := List.mem_map.mp ((y2 k).mp hk')
  obtain ⟨hr1, hr2⟩ := List.mem_filter.mp hr
  simp [hu r hr1 hrk] at hr2

end PDP.EndToEnd
