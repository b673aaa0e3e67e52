import Verif.Engine.Release
import Verif.Engine.SensitivityProps

/-! # Properties C21 (names and budgets) -/

set_option linter.unusedSectionVars false
set_option linter.unusedVariables false

namespace PDP.Engine

/-- The names other than percentiles. -/
def fixedNames : List String :=
  ["variance", "mean", "count", "sum", "privacy_id_count", "vector_sum"]

theorem percentile_not_fixed (s : String) : "percentile_" ++ s ∉ fixedNames := by
  intro h
  have h2 : ("percentile_" ++ s).toList ∈ fixedNames.map String.toList := List.mem_map.mpr ⟨_, h, rfl⟩
  rw [String.toList_append] at h2
  revert h2
  simp [fixedNames]

theorem percentile_injective {fmt : ℚ → String} (hf : ∀ a b, fmt a = fmt b → a = b) (a b : ℚ)
    (h : "percentile_" ++ fmt a = "percentile_" ++ fmt b) : a = b := by
  apply hf
  have h2 := congrArg String.toList h
  rw [String.toList_append, String.toList_append] at h2
  exact String.toList_inj.mp (List.append_cancel_left h2)

/-- The scalar names of variance, mean, count and sum. -/
theorem scalarParts_spec (fmt : ℚ → String) (p : Params) (rs : List Request) :
    ∃ new : List Request, (scalarParts p rs).2 = rs ++ new ∧
      (∀ r ∈ new, r.weight = p.budgetWeight ∧ r.mechanism = p.noiseKind.mechanism) ∧
      (scalarParts p rs).1.flatMap Part.specs = List.range' rs.length new.length ∧
      ((scalarParts p rs).1.flatMap (Part.keys fmt)).Perm ((scalarParts p rs).1.flatMap (Part.names fmt)) ∧
      ((scalarParts p rs).1.flatMap (Part.names fmt)).Perm
        ((if Metric.variance ∈ p.metrics then ["variance"] else []) ++
         (if Metric.mean ∈ p.metrics then ["mean"] else []) ++
         (if Metric.count ∈ p.metrics then ["count"] else []) ++
         (if Metric.sum ∈ p.metrics then ["sum"] else [])) ∧
      new.length = (if Metric.variance ∈ p.metrics then 1 else if Metric.mean ∈ p.metrics then 2 else
        (if Metric.count ∈ p.metrics then 1 else 0) + (if Metric.sum ∈ p.metrics then 1 else 0)) := by
  unfold scalarParts
  by_cases hv : Metric.variance ∈ p.metrics <;> by_cases hm : Metric.mean ∈ p.metrics <;>
    by_cases hc : Metric.count ∈ p.metrics <;> by_cases hs : Metric.sum ∈ p.metrics <;>
    simp only [hv, hm, hc, hs, if_true, if_false, requestBudget, List.append_assoc] <;>
    first
    | refine ⟨_, rfl, ?_, ?_, ?_, ?_, ?_⟩ <;> simp [Part.specs, Part.keys, Part.names, List.range'] <;> decide
    | refine ⟨[], by simp, ?_, ?_, ?_, ?_, ?_⟩ <;> simp

theorem singlePart_spec (fmt : ℚ → String) (rs : List Request) (c : Prop) [Decidable c] (q : Request)
    (mk : ℕ → Part) (nm : String) (h1 : ∀ s, (mk s).specs = [s]) (h2 : ∀ s, (mk s).names fmt = [nm])
    (h3 : ∀ s, (mk s).keys fmt = [nm]) (out : List Part × List Request)
    (ho : out = if c then ([mk rs.length], rs ++ [q]) else ([], rs)) :
    ∃ new : List Request, out.2 = rs ++ new ∧ new = (if c then [q] else []) ∧
      out.1.flatMap Part.specs = List.range' rs.length new.length ∧
      (out.1.flatMap (Part.keys fmt)).Perm (out.1.flatMap (Part.names fmt)) ∧
      out.1.flatMap (Part.names fmt) = if c then [nm] else [] := by
  subst ho
  by_cases hc : c
  · simp [hc, h1, h2, h3]
  · simp [hc]

theorem quantilePart_spec (fmt : ℚ → String) (p : Params) (rs : List Request) :
    ∃ new : List Request, (quantilePart p rs).2 = rs ++ new ∧
      new = (if p.metrics.filterMap Metric.percentile? ≠ [] then [⟨p.noiseKind.mechanism, p.budgetWeight⟩] else []) ∧
      (quantilePart p rs).1.flatMap Part.specs = List.range' rs.length new.length ∧
      (quantilePart p rs).1.flatMap (Part.keys fmt)
        = ((p.metrics.filterMap Metric.percentile?).map fun p => "percentile_" ++ fmt p).dedup ∧
      (quantilePart p rs).1.flatMap (Part.names fmt)
        = (p.metrics.filterMap Metric.percentile?).map fun p => "percentile_" ++ fmt p := by
  unfold quantilePart
  by_cases h : p.metrics.filterMap Metric.percentile? = []
  · simp [h]
  · simp [h, requestBudget, Part.specs, Part.keys, Part.names]

/-- All released names of the parts, before the check for duplicates. -/
def expectedNames (fmt : ℚ → String) (p : Params) : List String :=
  (if Metric.variance ∈ p.metrics then ["variance"] else []) ++
  (if Metric.mean ∈ p.metrics then ["mean"] else []) ++
  (if Metric.count ∈ p.metrics then ["count"] else []) ++
  (if Metric.sum ∈ p.metrics then ["sum"] else []) ++
  (if Metric.privacyIdCount ∈ p.metrics then ["privacy_id_count"] else []) ++
  (if Metric.vectorSum ∈ p.metrics then ["vector_sum"] else []) ++
  (p.metrics.filterMap Metric.percentile?).map fun p => "percentile_" ++ fmt p

/-- The number of budget requests. -/
def requestCount (p : Params) : ℕ :=
  (if Metric.variance ∈ p.metrics then 1 else if Metric.mean ∈ p.metrics then 2 else
    (if Metric.count ∈ p.metrics then 1 else 0) + (if Metric.sum ∈ p.metrics then 1 else 0)) +
  (if Metric.privacyIdCount ∈ p.metrics then 1 else 0) +
  (if Metric.vectorSum ∈ p.metrics then 1 else 0) +
  (if p.metrics.filterMap Metric.percentile? ≠ [] then 1 else 0)

theorem createCompound_spec (fmt : ℚ → String) (p : Params) (rs : List Request) :
    ∃ (new : List Request) (parts : List Part),
      createCompound fmt p rs = (if (parts.flatMap (Part.names fmt)).Nodup then .ok parts else .error .valueError,
        rs ++ new) ∧
      (parts.flatMap (Part.names fmt)).Perm (expectedNames fmt p) ∧
      ((parts.flatMap (Part.names fmt)).Nodup → (parts.flatMap (Part.keys fmt)).Perm (expectedNames fmt p)) ∧
      parts.flatMap Part.specs = List.range' rs.length new.length ∧
      new.length = requestCount p ∧
      ∀ r ∈ new, r.weight = p.budgetWeight ∧ (r.mechanism = p.noiseKind.mechanism ∨
        (p.postThresholding = true ∧ Metric.privacyIdCount ∈ p.metrics ∧
          r.mechanism = p.noiseKind.thresholding)) := by
  obtain ⟨n1, a1, a2, a3, a4, a5, a6⟩ := scalarParts_spec fmt p rs
  have hpid : ∃ new : List Request, (privacyIdPart p (scalarParts p rs).2).2 = (scalarParts p rs).2 ++ new ∧
      new = (if Metric.privacyIdCount ∈ p.metrics then
        [⟨if p.postThresholding then p.noiseKind.thresholding else p.noiseKind.mechanism, p.budgetWeight⟩] else []) ∧
      (privacyIdPart p (scalarParts p rs).2).1.flatMap Part.specs
        = List.range' (scalarParts p rs).2.length new.length ∧
      ((privacyIdPart p (scalarParts p rs).2).1.flatMap (Part.keys fmt)).Perm
        ((privacyIdPart p (scalarParts p rs).2).1.flatMap (Part.names fmt)) ∧
      (privacyIdPart p (scalarParts p rs).2).1.flatMap (Part.names fmt)
        = if Metric.privacyIdCount ∈ p.metrics then ["privacy_id_count"] else [] := by
    cases hpt : p.postThresholding with
    | true =>
      refine singlePart_spec fmt _ _ _ Part.thresholding "privacy_id_count" (fun _ => rfl) (fun _ => rfl)
        (fun _ => rfl) _ ?_
      simp [privacyIdPart, hpt, requestBudget]
    | false =>
      refine singlePart_spec fmt _ _ _ Part.privacyIdCount "privacy_id_count" (fun _ => rfl) (fun _ => rfl)
        (fun _ => rfl) _ ?_
      simp [privacyIdPart, hpt, requestBudget]
  obtain ⟨n2, b1, b2, b3, b4, b5⟩ := hpid
  obtain ⟨n3, c1, c2, c3, c4, c5⟩ := singlePart_spec fmt (privacyIdPart p (scalarParts p rs).2).2
    (Metric.vectorSum ∈ p.metrics) ⟨p.noiseKind.mechanism, p.budgetWeight⟩ Part.vectorSum "vector_sum"
    (fun _ => rfl) (fun _ => rfl) (fun _ => rfl) (vectorPart p (privacyIdPart p (scalarParts p rs).2).2)
    (by simp [vectorPart, requestBudget])
  obtain ⟨n4, d1, d2, d3, d4, d5⟩ := quantilePart_spec fmt p
    (vectorPart p (privacyIdPart p (scalarParts p rs).2).2).2
  refine ⟨n1 ++ n2 ++ n3 ++ n4, (scalarParts p rs).1 ++ (privacyIdPart p (scalarParts p rs).2).1 ++
    (vectorPart p (privacyIdPart p (scalarParts p rs).2).2).1 ++
    (quantilePart p (vectorPart p (privacyIdPart p (scalarParts p rs).2).2).2).1, ?_, ?_, ?_, ?_, ?_, ?_⟩
  · unfold createCompound
    simp only
    have hrs : (quantilePart p (vectorPart p (privacyIdPart p (scalarParts p rs).2).2).2).2
        = rs ++ (n1 ++ n2 ++ n3 ++ n4) := by
      rw [d1, c1, b1, a1]; simp only [List.append_assoc]
    rw [hrs]
    split <;> rfl
  · simp only [List.flatMap_append, b5, c5, d5, expectedNames]
    exact ((a5.append_right _).append_right _).append_right _
  · intro hn
    simp only [List.flatMap_append, b5, c5, d5] at hn
    have hd : ((p.metrics.filterMap Metric.percentile?).map fun p => "percentile_" ++ fmt p).dedup
        = (p.metrics.filterMap Metric.percentile?).map fun p => "percentile_" ++ fmt p :=
      (List.Nodup.of_append_right hn).dedup
    simp only [List.flatMap_append, d4, hd, expectedNames]
    refine List.Perm.append_right _ ?_
    refine List.Perm.append ?_ (by rw [← c5]; exact c4)
    refine List.Perm.append (a4.trans a5) (by rw [← b5]; exact b4)
  · have e1 : (scalarParts p rs).2.length = rs.length + n1.length := by rw [a1, List.length_append]
    have e2 : (privacyIdPart p (scalarParts p rs).2).2.length = rs.length + (n1.length + n2.length) := by
      rw [b1, List.length_append, e1, Nat.add_assoc]
    have e3 : (vectorPart p (privacyIdPart p (scalarParts p rs).2).2).2.length
        = rs.length + (n1.length + n2.length + n3.length) := by
      rw [c1, List.length_append, e2]; omega
    rw [e1] at b3
    rw [e2] at c3
    rw [e3] at d3
    simp only [List.flatMap_append, a3, b3, c3, d3, List.length_append, List.range'_append_1]
  · simp only [List.length_append, a6, b2, c2, d2, requestCount]
    congr 1
    · congr 1
      · congr 1; split <;> rfl
      · split <;> rfl
    · split <;> rfl
  · intro r hr
    simp only [List.mem_append] at hr
    rcases hr with ((hr | hr) | hr) | hr
    · exact ⟨(a2 r hr).1, Or.inl (a2 r hr).2⟩
    · rw [b2] at hr
      by_cases hp : Metric.privacyIdCount ∈ p.metrics
      · rw [if_pos hp, List.mem_singleton] at hr
        subst hr
        refine ⟨rfl, ?_⟩
        cases hpt : p.postThresholding with
        | true => exact Or.inr ⟨rfl, hp, by simp⟩
        | false => exact Or.inl (by simp)
      · rw [if_neg hp] at hr; simp at hr
    · rw [c2] at hr
      by_cases hp : Metric.vectorSum ∈ p.metrics
      · rw [if_pos hp, List.mem_singleton] at hr; subst hr; exact ⟨rfl, Or.inl rfl⟩
      · rw [if_neg hp] at hr; simp at hr
    · rw [d2] at hr
      split at hr
      · rw [List.mem_singleton] at hr; subst hr; exact ⟨rfl, Or.inl rfl⟩
      · simp at hr

theorem releasedNames_of_nodup (fmt : ℚ → String) (parts : List Part)
    (h : (parts.flatMap (Part.keys fmt)).Nodup) : releasedNames fmt parts = .ok (parts.flatMap (Part.keys fmt)) := by
  have key : ∀ acc : List String, (acc ++ parts.flatMap (Part.keys fmt)).Nodup →
      parts.foldlM (fun acc part =>
        if (part.keys fmt).any (fun k => acc.contains k) then Except.error Err.keyError
        else .ok (acc ++ part.keys fmt)) acc = Except.ok (acc ++ parts.flatMap (Part.keys fmt)) := by
    clear h
    induction parts with
    | nil => intro acc _; simp [pure, Except.pure]
    | cons part parts ih =>
      intro acc hacc
      rw [List.flatMap_cons, ← List.append_assoc] at hacc
      have h1 : ((part.keys fmt).any fun k => acc.contains k) = false := by
        rw [List.any_eq_false]
        intro k hk
        have h2 := (List.nodup_append.mp (List.Nodup.of_append_left hacc)).2.2
        intro h3
        exact h2 k (by simpa using h3) k hk rfl
      rw [List.foldlM_cons, h1]
      simp only [Bool.false_eq_true, if_false, bind, Except.bind]
      rw [ih _ hacc, List.flatMap_cons, List.append_assoc]
  exact key [] (by simpa using h)

theorem mem_expectedNames (fmt : ℚ → String) (p : Params) (s : String) :
    s ∈ expectedNames fmt p ↔ ∃ m ∈ p.metrics, m.name fmt = s := by
  unfold expectedNames
  simp only [List.mem_append]
  have hp : s ∈ (p.metrics.filterMap Metric.percentile?).map (fun p => "percentile_" ++ fmt p) ↔
      ∃ q, Metric.percentile q ∈ p.metrics ∧ "percentile_" ++ fmt q = s := by
    simp only [List.mem_map, List.mem_filterMap]
    constructor
    · rintro ⟨q, ⟨m, hm, hq⟩, rfl⟩
      cases m <;> simp [Metric.percentile?] at hq
      subst hq; exact ⟨_, hm, rfl⟩
    · rintro ⟨q, hq, rfl⟩; exact ⟨q, ⟨_, hq, rfl⟩, rfl⟩
  rw [hp]
  constructor
  · rintro ((((((h | h) | h) | h) | h) | h) | ⟨q, hq, rfl⟩)
    all_goals first | exact ⟨_, hq, rfl⟩ | skip
    all_goals
      split at h
      · rename_i hm
        rw [List.mem_singleton] at h
        subst h
        exact ⟨_, hm, rfl⟩
      · simp at h
  · rintro ⟨m, hm, rfl⟩
    cases m <;> simp [hm, Metric.name]
    exact Or.inr ⟨_, hm, rfl⟩

theorem expectedNames_nodup (fmt : ℚ → String) (hf : ∀ a b, fmt a = fmt b → a = b) (p : Params) :
    (expectedNames fmt p).Nodup ↔ (p.metrics.filterMap Metric.percentile?).Nodup := by
  unfold expectedNames
  generalize p.metrics.filterMap Metric.percentile? = ps
  have h1 : ∀ f : List String, f.Sublist fixedNames →
      ((f ++ ps.map fun p => "percentile_" ++ fmt p).Nodup ↔ ps.Nodup) := by
    intro f hs
    have hfn : f.Nodup := List.Nodup.sublist hs (by decide)
    rw [List.nodup_append]
    constructor
    · intro h; exact h.2.1.of_map _
    · intro h
      refine ⟨hfn, h.map (fun a b => percentile_injective hf a b), ?_⟩
      intro a ha b hb hab
      obtain ⟨q, -, rfl⟩ := List.mem_map.mp hb
      exact percentile_not_fixed _ (hs.subset (hab ▸ ha))
  apply h1
  have key : ∀ (c : Prop) [Decidable c] (s : String), (if c then [s] else []).Sublist [s] := by
    intro c _ s; split <;> simp
  exact ((((((key _ _).append (key _ _)).append (key _ _)).append (key _ _)).append (key _ _)).append (key _ _))

/-- **C21.** The metrics released for a partition are exactly the requested ones, each once: MEAN and
VARIANCE take over COUNT, SUM (and MEAN) instead of releasing them a second time.  Building the combiner
fails only if a percentile is requested twice.  `fmt` is the textual form of numbers, assumed injective. -/
theorem C21_released_names_are_the_requested_metrics (fmt : ℚ → String) (hf : ∀ a b, fmt a = fmt b → a = b)
    (p : Params) (rs : List Request) :
    ((∃ parts, (createCompound fmt p rs).1 = .ok parts) ↔ (p.metrics.filterMap Metric.percentile?).Nodup) ∧
    ∀ parts, (createCompound fmt p rs).1 = .ok parts →
      ∃ names, releasedNames fmt parts = .ok names ∧ names.Nodup ∧
        ∀ s, s ∈ names ↔ ∃ m ∈ p.metrics, m.name fmt = s := by
  obtain ⟨new, parts, h1, h2, h3, -⟩ := createCompound_spec fmt p rs
  have hiff : (parts.flatMap (Part.names fmt)).Nodup ↔ (p.metrics.filterMap Metric.percentile?).Nodup := by
    rw [h2.nodup_iff, expectedNames_nodup fmt hf]
  rw [h1]
  constructor
  · rw [← hiff]
    by_cases hn : (parts.flatMap (Part.names fmt)).Nodup
    · simp [hn]
    · simp [hn]
  · intro parts' hp
    by_cases hn : (parts.flatMap (Part.names fmt)).Nodup
    · simp only [hn, if_true, Except.ok.injEq] at hp
      subst hp
      have h4 := h3 hn
      have h5 : (parts.flatMap (Part.keys fmt)).Nodup := h4.nodup_iff.mpr (h2.nodup_iff.mp hn)
      refine ⟨_, releasedNames_of_nodup fmt parts h5, h5, fun s => ?_⟩
      rw [h4.mem_iff, mem_expectedNames]
    · simp [hn] at hp

/-- **C21.** Budgets: the combiners request `requestCount` budgets, all with the weight of the
parameters and with the mechanism of the noise kind (the thresholding mechanism for PRIVACY_ID_COUNT with
post-aggregation thresholding), and every request is used by exactly one combiner, exactly once. -/
theorem C21_each_budget_is_used_once (fmt : ℚ → String) (p : Params) (rs : List Request) (parts : List Part)
    (hp : (createCompound fmt p rs).1 = .ok parts) :
    ∃ new : List Request, (createCompound fmt p rs).2 = rs ++ new ∧ new.length = requestCount p ∧
      parts.flatMap Part.specs = List.range' rs.length new.length ∧
      ∀ r ∈ new, r.weight = p.budgetWeight ∧ (r.mechanism = p.noiseKind.mechanism ∨
        (p.postThresholding = true ∧ Metric.privacyIdCount ∈ p.metrics ∧
          r.mechanism = p.noiseKind.thresholding)) := by
  obtain ⟨new, parts', h1, -, -, h4, h5, h6⟩ := createCompound_spec fmt p rs
  rw [h1] at hp
  by_cases hn : (parts'.flatMap (Part.names fmt)).Nodup
  · simp only [hn, if_true, Except.ok.injEq] at hp
    subst hp
    exact ⟨new, by rw [h1], h5, h4, h6⟩
  · simp [hn] at hp

/-- The mechanism that a combiner needs: thresholding for post-aggregation thresholding, otherwise the noise of the
parameters. -/
def Part.mechanism (k : NoiseKind) : Part → Mechanism
  | .thresholding _ => k.thresholding
  | _ => k.mechanism

theorem getElem?_prefix {α : Type} {l : List α} {i : ℕ} {r : α} (h : l[i]? = some r) (l' : List α) :
    (l ++ l')[i]? = some r := by
  rw [List.getElem?_append_left (List.getElem?_eq_some_iff.mp h).1, h]

/-- **C21.** Every combiner uses the budgets that were requested for it, with the mechanism it needs: the budget at each of its
positions was requested with the thresholding mechanism for the thresholding combiner and with the noise of the parameters for
all others. -/
theorem C21_each_combiner_gets_its_mechanism (fmt : ℚ → String) (p : Params) (rs : List Request) (parts : List Part)
    (hp : (createCompound fmt p rs).1 = .ok parts) :
    ∀ part ∈ parts, ∀ i ∈ part.specs,
      (createCompound fmt p rs).2[i]? = some ⟨part.mechanism p.noiseKind, p.budgetWeight⟩ := by
  have hlast : ∀ (l : List Request) (r : Request), (l ++ [r])[l.length]? = some r := by
    intro l r; simp
  -- each step: prefix, and its own parts
  have h1 : (∃ n, (scalarParts p rs).2 = rs ++ n) ∧ ∀ part ∈ (scalarParts p rs).1, ∀ i ∈ part.specs,
      (scalarParts p rs).2[i]? = some ⟨part.mechanism p.noiseKind, p.budgetWeight⟩ := by
    unfold scalarParts
    by_cases hv : Metric.variance ∈ p.metrics
    · rw [if_pos hv]
      refine ⟨⟨_, rfl⟩, ?_⟩
      intro part hpart i hi
      simp only [requestBudget, List.mem_singleton] at hpart
      subst hpart
      simp only [Part.specs, List.mem_singleton] at hi
      subst hi
      exact hlast _ _
    · rw [if_neg hv]
      by_cases hm : Metric.mean ∈ p.metrics
      · rw [if_pos hm]
        refine ⟨⟨[_, _], by simp [requestBudget]; exact ⟨rfl, rfl⟩⟩, ?_⟩
        intro part hpart i hi
        simp only [requestBudget, List.mem_singleton] at hpart
        subst hpart
        simp only [Part.specs, List.mem_cons, List.not_mem_nil, or_false] at hi
        rcases hi with rfl | rfl
        · exact getElem?_prefix (hlast _ _) _
        · exact hlast _ _
      · rw [if_neg hm]
        by_cases hc : Metric.count ∈ p.metrics <;> by_cases hs : Metric.sum ∈ p.metrics <;>
          simp only [hc, hs, if_true, if_false, requestBudget]
        · refine ⟨⟨[_, _], by simp; exact ⟨rfl, rfl⟩⟩, ?_⟩
          intro part hpart i hi
          simp only [List.mem_append, List.mem_singleton] at hpart
          rcases hpart with rfl | rfl
          · simp only [Part.specs, List.mem_singleton] at hi
            subst hi; exact getElem?_prefix (hlast _ _) _
          · simp only [Part.specs, List.mem_singleton] at hi
            subst hi; exact hlast _ _
        · refine ⟨⟨_, rfl⟩, ?_⟩
          intro part hpart i hi
          simp only [List.append_nil, List.mem_singleton] at hpart
          subst hpart
          simp only [Part.specs, List.mem_singleton] at hi
          subst hi; exact hlast _ _
        · refine ⟨⟨_, rfl⟩, ?_⟩
          intro part hpart i hi
          simp only [List.nil_append, List.mem_singleton] at hpart
          subst hpart
          simp only [Part.specs, List.mem_singleton] at hi
          subst hi; exact hlast _ _
        · exact ⟨⟨[], by simp⟩, by simp⟩
  have h2 : ∀ rs, (∃ n, (privacyIdPart p rs).2 = rs ++ n) ∧ ∀ part ∈ (privacyIdPart p rs).1, ∀ i ∈ part.specs,
      (privacyIdPart p rs).2[i]? = some ⟨part.mechanism p.noiseKind, p.budgetWeight⟩ := by
    intro rs
    unfold privacyIdPart
    by_cases hc : Metric.privacyIdCount ∈ p.metrics
    · rw [if_pos hc]
      by_cases ht : p.postThresholding = true
      · rw [if_pos ht]
        refine ⟨⟨_, rfl⟩, ?_⟩
        intro part hpart i hi
        simp only [requestBudget, List.mem_singleton] at hpart
        subst hpart
        simp only [Part.specs, List.mem_singleton] at hi
        subst hi; exact hlast _ _
      · rw [if_neg ht]
        refine ⟨⟨_, rfl⟩, ?_⟩
        intro part hpart i hi
        simp only [requestBudget, List.mem_singleton] at hpart
        subst hpart
        simp only [Part.specs, List.mem_singleton] at hi
        subst hi; exact hlast _ _
    · rw [if_neg hc]
      exact ⟨⟨[], by simp⟩, by simp⟩
  have h3 : ∀ rs, (∃ n, (vectorPart p rs).2 = rs ++ n) ∧ ∀ part ∈ (vectorPart p rs).1, ∀ i ∈ part.specs,
      (vectorPart p rs).2[i]? = some ⟨part.mechanism p.noiseKind, p.budgetWeight⟩ := by
    intro rs
    unfold vectorPart
    by_cases hc : Metric.vectorSum ∈ p.metrics
    · rw [if_pos hc]
      refine ⟨⟨_, rfl⟩, ?_⟩
      intro part hpart i hi
      simp only [requestBudget, List.mem_singleton] at hpart
      subst hpart
      simp only [Part.specs, List.mem_singleton] at hi
      subst hi; exact hlast _ _
    · rw [if_neg hc]
      exact ⟨⟨[], by simp⟩, by simp⟩
  have h4 : ∀ rs, (∃ n, (quantilePart p rs).2 = rs ++ n) ∧ ∀ part ∈ (quantilePart p rs).1, ∀ i ∈ part.specs,
      (quantilePart p rs).2[i]? = some ⟨part.mechanism p.noiseKind, p.budgetWeight⟩ := by
    intro rs
    unfold quantilePart
    by_cases hc : p.metrics.filterMap Metric.percentile? ≠ []
    · dsimp only
      rw [if_pos hc]
      refine ⟨⟨_, rfl⟩, ?_⟩
      intro part hpart i hi
      simp only [requestBudget, List.mem_singleton] at hpart
      subst hpart
      simp only [Part.specs, List.mem_singleton] at hi
      subst hi; exact hlast _ _
    · dsimp only
      rw [if_neg hc]
      exact ⟨⟨[], by simp⟩, by simp⟩
  unfold createCompound at hp ⊢
  obtain ⟨⟨n1, e1⟩, p1⟩ := h1
  obtain ⟨⟨n2, e2⟩, p2⟩ := h2 (scalarParts p rs).2
  obtain ⟨⟨n3, e3⟩, p3⟩ := h3 (privacyIdPart p (scalarParts p rs).2).2
  obtain ⟨⟨n4, e4⟩, p4⟩ := h4 (vectorPart p (privacyIdPart p (scalarParts p rs).2).2).2
  simp only at hp ⊢
  split at hp
  · rename_i hn
    simp only [Except.ok.injEq] at hp
    subst hp
    rw [if_pos hn]
    intro part hpart i hi
    dsimp only
    simp only [List.mem_append] at hpart
    rcases hpart with ((hpart | hpart) | hpart) | hpart
    · rw [e4, e3, e2]
      exact getElem?_prefix (getElem?_prefix (getElem?_prefix (p1 part hpart i hi) _) _) _
    · rw [e4, e3]
      exact getElem?_prefix (getElem?_prefix (p2 part hpart i hi) _) _
    · rw [e4]
      exact getElem?_prefix (p3 part hpart i hi) _
    · exact p4 part hpart i hi
  · simp at hp

/-- COUNT with a thresholded PRIVACY_ID_COUNT and Gaussian noise. -/
example :
    let p : Params :=
      { metrics := [.count, .privacyIdCount], noiseKind := .gaussian, postThresholding := true, budgetWeight := 2 }
    createCompound (fun q => toString q.num) p [] = (.ok [.count 0, .thresholding 1],
      [⟨.gaussian, 2⟩, ⟨.gaussianThresholding, 2⟩]) := by decide +kernel

/-- MEAN, COUNT, PRIVACY_ID_COUNT and two percentiles: four requests, five names. -/
example :
    let p : Params := { metrics := [.count, .mean, .privacyIdCount, .percentile 50, .percentile 90] }
    let fmt : ℚ → String := fun q => toString q.num
    (createCompound fmt p []).1 = .ok [.mean 0 1 ["mean", "count"], .privacyIdCount 2, .quantile 3 [50, 90]] ∧
    (createCompound fmt p []).2.length = 4 ∧
    releasedNames fmt [.mean 0 1 ["mean", "count"], .privacyIdCount 2, .quantile 3 [50, 90]]
      = .ok ["mean", "count", "privacy_id_count", "percentile_50", "percentile_90"] := by
  decide +kernel

/-- A percentile requested twice is rejected. -/
example : (createCompound (fun q => toString q.num) { metrics := [.percentile 50, .percentile 50] } []).1
    = .error .valueError := by decide +kernel

end PDP.Engine
