import Verif.EndToEnd.Custom
import Verif.Histogram.Sum

/-! # One call with custom combiners on neighbouring datasets -/

set_option linter.unusedSectionVars false

namespace PDP.EndToEnd

open PDP PDP.Engine MeasureTheory
open PDP.Engine.Mechanism (computed)
open PDP.Engine.AddNoise (specOf)
open PDP.Budget (State Op MechType)
open PDP.Approx (Indist)

variable {R P K V A O : Type} [DecidableEq P] [DecidableEq K] [MeasurableSpace O]

/-! ### Lists of values behind the accumulators -/

/-- The lists of values behind the accumulators of a partition. -/
def lists (pub : Option (List K)) (en : List ((P × K) × List V)) : List (K × List V) :=
  addEmptyPublic id pub (en.map fun e => (e.1.2, e.2))

theorem addEmptyPublic_map (create : List V → A) (pub : Option (List K)) (en : List ((P × K) × List V)) :
    addEmptyPublic create pub (en.map fun e => (e.1.2, create e.2)) = (lists pub en).map fun e => (e.1, create e.2) := by
  unfold lists addEmptyPublic
  cases pub with
  | none => simp [Function.comp_def]
  | some ps => simp [Function.comp_def]

theorem lists_perm (pub : Option (List K)) (en : List ((P × K) × List V)) (u : P) (k : K) :
    (valuesOf k (lists pub en)).Perm (valuesOf k (entriesOf u en) ++ valuesOf k (lists pub (en.filter fun e => e.1.1 ≠ u))) := by
  have base : (valuesOf k (en.map fun e => (e.1.2, e.2))).Perm
      (valuesOf k (entriesOf u en) ++ valuesOf k ((en.filter fun e => e.1.1 ≠ u).map fun e => (e.1.2, e.2))) := by
    unfold entriesOf
    induction en with
    | nil => exact List.Perm.refl _
    | cons e en ih =>
      by_cases h : e.1.1 = u
      · rw [List.filter_cons_of_pos (by simp [h]), List.filter_cons_of_neg (by simp [h]), List.map_cons, List.map_cons,
          valuesOf_cons, valuesOf_cons]
        split
        · exact ih.cons _
        · exact ih
      · rw [List.filter_cons_of_neg (by simp [h]), List.filter_cons_of_pos (by simp [h]), List.map_cons, List.map_cons,
          valuesOf_cons, valuesOf_cons]
        split
        · exact (ih.cons _).trans List.perm_middle.symm
        · exact ih
  unfold lists addEmptyPublic
  cases pub with
  | none => exact base
  | some ps =>
    dsimp only
    rw [valuesOf_append, valuesOf_append, ← List.append_assoc]
    exact base.append_right _

/-- The accumulators with and without `u`, made of the same lists of values except for those of `u`. -/
theorem accumulators_lists (B : Backend) (hB : B.Lawful) (hK : B.KeyLocal) (p : Params) (hp : p.BoundsValid)
    (sampling : Bool) (create : List V → A) (pub : Option (List K)) (col : List (P × K × V)) (u : P)
    (hu : CallerKeepsBounds p u col) :
    ∃ en : List ((P × K) × List V), BoundedEntries p sampling (dropPartitions p pub col) en ∧
      accumulators B p sampling create pub col = .ok ((lists pub en).map fun e => (e.1, create e.2)) ∧
      accumulators B p sampling create pub (without u col)
        = .ok ((lists pub (en.filter fun e => e.1.1 ≠ u)).map fun e => (e.1, create e.2)) ∧
      UserEntries p sampling (entriesOf u en) := by
  have hu' := hu.sublist (dropPartitions_sublist p pub col)
  cases he : p.boundsEnforced with
  | true =>
    have h1 : ∀ c : List (P × K × V), accumulators B p sampling create pub c
        = .ok (addEmptyPublic create pub (((dropPartitions p pub c).map fun r => ((r.1, r.2.1), [r.2.2])).map
            fun e => (e.1.2, create e.2))) := by
      intro c
      simp [accumulators, dataAccumulators, he, bind, Except.bind, pure, Except.pure, Function.comp_def]
    refine ⟨(dropPartitions p pub col).map fun r => ((r.1, r.2.1), [r.2.2]),
      ⟨fun _ => rfl, fun h => absurd (he.symm.trans h) (by decide)⟩, ?_, ?_, ?_⟩
    · rw [h1, addEmptyPublic_map]
    · rw [h1, addEmptyPublic_map, dropPartitions_without]
      congr 4
      simp only [without, List.filter_map]; rfl
    · have hen : entriesOf u ((dropPartitions p pub col).map fun r => ((r.1, r.2.1), [r.2.2]))
          = ((dropPartitions p pub col).filter fun r => r.1 = u).map fun r => (r.2.1, [r.2.2]) := by
        unfold entriesOf
        simp only [List.filter_map, List.map_map]; rfl
      rw [hen]
      obtain ⟨hm, h0, hi⟩ := hu'.1 he
      refine ⟨?_, ?_, ?_, ?_, by simp [he]⟩
      · intro e he2
        obtain ⟨r, -, rfl⟩ := List.mem_map.mp he2
        simp
      · intro l hl
        rw [List.map_map]
        exact h0 l hl
      · intro l hl _ k
        rw [cell_singletons]; exact hi l hl k
      · intro m hmm
        simpa [Function.comp_def] using hm m hmm
  | false =>
    obtain ⟨b, hb, kept, k1, k2, k3⟩ := run_kept B hB p hp he sampling create (dropPartitions p pub col)
    have h1 : ∀ c : List (P × K × V), accumulators B p sampling create pub c
        = .ok (addEmptyPublic create pub ((b.run B create (dropPartitions p pub c)).map fun e => (e.1.2, e.2))) := by
      intro c
      simp [accumulators, dataAccumulators, he, hb, bind, Except.bind, pure, Except.pure]
    refine ⟨kept, ⟨fun h => absurd (he.symm.trans h) (by decide), fun _ => ⟨k2, k3⟩⟩, ?_, ?_, k3 u hu'⟩
    · rw [h1, k1, List.map_map, ← addEmptyPublic_map]; rfl
    · rw [h1, dropPartitions_without, run_without B hK, k1, List.filter_map, List.map_map, ← addEmptyPublic_map]; rfl

/-! ### Merging -/

theorem total_reduce (c : CustomClass V A O) (p : Params) {l : List (List V)} (h : l ≠ []) :
    reduce (c.merge p) (l.map (c.create p)) = some (c.total p l) := by
  cases l with
  | nil => exact absurd rfl h
  | cons x l => rfl

theorem total_append (c : CustomClass V A O) (p : Params)
    (hassoc : ∀ a b d, c.merge p (c.merge p a b) d = c.merge p a (c.merge p b d)) {l l' : List (List V)} (h : l ≠ [])
    (h' : l' ≠ []) : c.merge p (c.total p l) (c.total p l') = c.total p (l ++ l') := by
  have := reduce_append (c.merge p) hassoc _ _ _ _ (total_reduce c p h) (total_reduce c p h')
  rw [← List.map_append, total_reduce c p (by simp [h])] at this
  exact (Option.some.inj this).symm

theorem total_perm (c : CustomClass V A O) (p : Params)
    (hassoc : ∀ a b d, c.merge p (c.merge p a b) d = c.merge p a (c.merge p b d)) (hcomm : ∀ a b, c.merge p a b = c.merge p b a)
    {l l' : List (List V)} (h : l.Perm l') : c.total p l = c.total p l' := by
  by_cases hl : l = []
  · subst hl
    rw [List.nil_perm.mp h]
  · have hl' : l' ≠ [] := fun hh => hl (by subst hh; exact List.perm_nil.mp h)
    have := reduce_perm (c.merge p) hassoc hcomm (h.map (c.create p))
    rw [total_reduce c p hl, total_reduce c p hl'] at this
    exact Option.some.inj this

/-- A combiner object `q.1` with the budgets at the positions `q.2`. -/
noncomputable def readyOf (cls : ℕ → CustomClass V A O) (p : Params) (ε δ : ℕ → ℝ) (q : ℕ × List ℕ) : ReadyCombiner V A O :=
  ⟨(cls q.1).create p, (cls q.1).merge p, (cls q.1).compute p (q.2.map fun i => (ε i, δ i))⟩

theorem mergeEach_map (cls : ℕ → CustomClass V A O) (p : Params) (ε δ : ℕ → ℝ) (z : List (ℕ × List ℕ)) (f g : ℕ × List ℕ → A) :
    mergeEach (z.map (readyOf cls p ε δ)) (z.map f) (z.map g) = z.map fun q => (cls q.1).merge p (f q) (g q) := by
  induction z with
  | nil => rfl
  | cons q z ih => simp only [List.map_cons, mergeEach, ih]; rfl

theorem customCompute_map (cls : ℕ → CustomClass V A O) (p : Params) (ε δ : ℕ → ℝ) (z : List (ℕ × List ℕ)) (f : ℕ × List ℕ → A)
    (n : ℕ) : customCompute (z.map (readyOf cls p ε δ)) (n, z.map f)
      = z.map fun q => (cls q.1).compute p (q.2.map fun i => (ε i, δ i)) (f q) := by
  unfold customCompute
  induction z with
  | nil => rfl
  | cons q z ih =>
    simp only [List.map_cons, List.zipWith_cons_cons]
    exact congrArg₂ List.cons rfl ih

theorem tree_total {cls : ℕ → CustomClass V A O} {p : Params} {ε δ : ℕ → ℝ} {z : List (ℕ × List ℕ)}
    (hassoc : ∀ q ∈ z, ∀ a b d, (cls q.1).merge p ((cls q.1).merge p a b) d = (cls q.1).merge p a ((cls q.1).merge p b d))
    (t : MergeTree (ℕ × List A)) : ∀ xs : List (List V), t.leaves = xs.map (customCreate (z.map (readyOf cls p ε δ))) →
      xs ≠ [] ∧ t.eval (customMerge (z.map (readyOf cls p ε δ))) = (xs.length, z.map fun q => (cls q.1).total p xs) := by
  induction t with
  | leaf a =>
    intro xs h
    simp only [MergeTree.leaves] at h
    obtain ⟨x, l, rfl, rfl, h2⟩ := List.map_eq_cons_iff.mp h.symm
    have : l = [] := by simpa using h2
    subst this
    refine ⟨by simp, ?_⟩
    simp only [MergeTree.eval, customCreate, List.map_map]
    rfl
  | node l r ihl ihr =>
    intro xs h
    simp only [MergeTree.leaves] at h
    obtain ⟨x1, x2, rfl, h1, h2⟩ := List.map_eq_append_iff.mp h.symm
    obtain ⟨n1, e1⟩ := ihl x1 h1.symm
    obtain ⟨n2, e2⟩ := ihr x2 h2.symm
    refine ⟨by simp [n1], ?_⟩
    simp only [MergeTree.eval]
    rw [e1, e2]
    unfold customMerge
    dsimp only
    rw [mergeEach_map, List.length_append]
    congr 1
    apply List.map_congr_left
    intro q hq
    exact total_append _ p (hassoc q hq) n1 n2

theorem combined_total {cls : ℕ → CustomClass V A O} {p : Params} {ε δ : ℕ → ℝ} {z : List (ℕ × List ℕ)}
    (hassoc : ∀ q ∈ z, ∀ a b d, (cls q.1).merge p ((cls q.1).merge p a b) d = (cls q.1).merge p a ((cls q.1).merge p b d))
    (hcomm : ∀ q ∈ z, ∀ a b, (cls q.1).merge p a b = (cls q.1).merge p b a) {l : List (K × List V)} {out : List (K × ℕ × List A)}
    (hC : IsCombine (customMerge (z.map (readyOf cls p ε δ)))
      (l.map fun e => (e.1, customCreate (z.map (readyOf cls p ε δ)) e.2)) out) :
    ∀ e ∈ out, e.2 = ((valuesOf e.1 l).length, z.map fun q => (cls q.1).total p (valuesOf e.1 l)) := by
  intro e he
  obtain ⟨t, h1, h2⟩ := hC.values e he
  rw [valuesOf_map_values] at h1
  obtain ⟨ys, h3, h4⟩ := Histogram.perm_map_exists _ h1
  obtain ⟨-, h5⟩ := tree_total hassoc t ys h4
  rw [h2, h5, h3.length_eq]
  congr 1
  apply List.map_congr_left
  intro q hq
  exact total_perm _ p (hassoc q hq) (hcomm q hq) h3

/-! ### Workers -/

theorem getD_of_lt {X : Type} (l : List X) (d : X) {i : ℕ} (h : i < l.length) : l.getD i d = l[i] := by
  simp [List.getD_eq_getElem?_getD, h]

theorem getD_of_ge {X : Type} (l : List X) (d : X) {i : ℕ} (h : l.length ≤ i) : l.getD i d = d := by
  simp [List.getD_eq_getElem?_getD, h]

theorem readBudgets_ok {s : Specs} {ε δ : ℕ → ℝ} {rs : List Request} {is : List ℕ}
    (h : List.Forall₂ (fun (r : Request) i => SpecOk s ε δ i r.mechanism) rs is) :
    readBudgets s is = .ok (is.map fun i => (ε i, δ i)) ∧ ValidBudgets rs (is.map fun i => (ε i, δ i)) := by
  induction h with
  | nil => exact ⟨rfl, List.Forall₂.nil⟩
  | cons h _ ih =>
    refine ⟨?_, List.Forall₂.cons ⟨h.eps, h.delta, h.pos⟩ ih.2⟩
    rw [readBudgets, ih.1, h.eq]
    rfl

theorem readyAll_ok {cls : ℕ → CustomClass V A O} {s : Specs} {st : Store} {ε δ : ℕ → ℝ} {p : Params} {z : List (ℕ × List ℕ)}
    (h : ∀ q ∈ z, st q.1 = some (p, q.2) ∧
      List.Forall₂ (fun (r : Request) i => SpecOk s ε δ i r.mechanism) ((cls q.1).requests p) q.2) :
    (z.map Prod.fst).mapM (ready cls s st) = .ok (z.map (readyOf cls p ε δ)) := by
  induction z with
  | nil => rfl
  | cons q z ih =>
    obtain ⟨h1, h2⟩ := h q (by simp)
    rw [List.map_cons, List.mapM_cons, ih fun q hq => h q (by simp [hq])]
    simp only [ready, h1, (readBudgets_ok h2).1]
    rfl

theorem userEntries_weaken {p : Params} {E : List (K × List V)} {a b : Bool} (h : UserEntries p a E) (hab : b = true → a = true) :
    UserEntries p b E :=
  ⟨h.nonempty, h.partitions, fun l hl hs => h.perPartition l hl (hs.imp hab id), h.total, h.once⟩

theorem customRows_removeId (pid : R → P) (c : CustomCall R K V) (u : P) (data : List R) :
    c.rows pid (removeId pid u data) = without u (c.rows pid data) := by
  unfold CustomCall.rows removeId without
  rw [List.filter_map]; rfl

/-- The decision (when there is no exception). -/
noncomputable def customGateFn (s : Specs) (p : Params) (sel : Option ℕ) (n : ℕ) : Gate :=
  match customGate s p sel n with
  | .ok g => g
  | .error _ => .always

theorem customDecision_eq (lib : Library) (L : List (CustomCandidate K O)) :
    customDecision lib L = decisionLaw lib (L.map fun c => ⟨c.key, c.gate, []⟩) := by
  funext k
  unfold customDecision decisionLaw
  rw [List.find?_map]
  have : ((fun c : Candidate K => decide (c.key = k)) ∘ fun c : CustomCandidate K O => (⟨c.key, c.gate, []⟩ : Candidate K))
      = fun c => decide (c.key = k) := rfl
  rw [this]
  cases L.find? fun c => decide (c.key = k) <;> rfl

theorem lists_keys_public {p : Params} {ps : List K} {sampling : Bool} {col : List (P × K × V)} {en : List ((P × K) × List V)}
    (hen : BoundedEntries p sampling (dropPartitions p (some ps) col) en)
    (hf : p.publicFiltered = true → ∀ r ∈ col, r.2.1 ∈ ps) (f : (P × K) × List V → Bool) (k : K) :
    k ∈ (lists (some ps) (en.filter f)).map Prod.fst ↔ k ∈ ps := by
  unfold lists addEmptyPublic
  simp only [List.map_append, List.map_map, List.mem_append]
  constructor
  · rintro (h | h)
    · obtain ⟨e, he, rfl⟩ := List.mem_map.mp h
      obtain ⟨r, hr, -, h2⟩ := hen.mem_data e (List.mem_filter.mp he).1
      show e.1.2 ∈ ps
      rw [← h2]
      unfold dropPartitions at hr
      cases hp : p.publicFiltered with
      | true =>
        rw [hp] at hr
        exact hf hp r (by simpa using hr)
      | false =>
        rw [hp] at hr
        have : r ∈ col ∧ r.2.1 ∈ ps := by simpa using hr
        exact this.2
    · simpa [Function.comp_def] using h
  · intro h
    right
    simpa [Function.comp_def] using h

set_option maxHeartbeats 1000000 in
/-- **One call with custom combiners.** -/
theorem custom_call {lib : Library} (hlib : lib.Contract) {s : Specs} {ε δ : ℕ → ℝ} {cls : ℕ → CustomClass V A O} {st : Store}
    {c : CustomCall R K V} (hs : c.Supported cls) {z : List (ℕ × List ℕ)} (hz : z.map Prod.fst = c.combiners)
    (hok : ∀ q ∈ z, st q.1 = some (c.params, q.2) ∧
      List.Forall₂ (fun (r : Request) i => SpecOk s ε δ i r.mechanism) ((cls q.1).requests c.params) q.2)
    {sel : Option ℕ} (hsel : sel.isSome = selectsPrivately c.params c.partitions)
    (hsi : ∀ i, sel = some i → SpecOk s ε δ i .generic) (o0 : O)
    (env : Env K) (henv : env.Lawful) (pid : R → P) (data : List R) (u : P)
    (hu : (XStep.custom c : XStep R K V).Promised pid data u) :
    ∃ x x', evalCustom cls s st env pid sel data c = .ok x ∧
      evalCustom cls s st env pid sel (removeId pid u data) c = .ok x' ∧
      ∃ q : GPair o0 (customDecision lib x) (customDecision lib x') (customOutput o0 x) (customOutput o0 x'),
        q.e ≤ (((z.map Prod.snd).flatten ++ sel.toList).map ε).sum ∧
        q.d ≤ (((z.map Prod.snd).flatten ++ sel.toList).map δ).sum := by
  obtain ⟨hu1, hu2⟩ := hu
  set p := c.params with hp
  set cs := z.map (readyOf cls p ε δ) with hcs
  have hmem : ∀ q ∈ z, q.1 ∈ c.combiners := fun q hq => by rw [← hz]; exact List.mem_map_of_mem hq
  have hpriv : ∀ q ∈ z, (cls q.1).Private p := fun q hq => hs.dp _ (hmem q hq)
  have hvalid : ∀ q ∈ z, ValidBudgets ((cls q.1).requests p) (q.2.map fun i => (ε i, δ i)) := fun q hq =>
    (readBudgets_ok (hok q hq).2).2
  have hready : c.combiners.mapM (ready cls s st) = .ok cs := by rw [← hz]; exact readyAll_ok hok
  obtain ⟨en, hen, ha, ha', hE⟩ := accumulators_lists env.backend henv.backend henv.keyLocal p hs.bounds (c.sampling cls)
    (customCreate cs) c.partitions (c.rows pid data) u hu1
  set l := lists c.partitions en with hl
  set l' := lists c.partitions (en.filter fun e => e.1.1 ≠ u) with hl'
  have hperm : ∀ k, (valuesOf k l).Perm (valuesOf k (entriesOf u en) ++ valuesOf k l') := lists_perm c.partitions en u
  have hC := henv.combine (customMerge cs) (l.map fun e => (e.1, customCreate cs e.2))
  have hC' := henv.combine (customMerge cs) (l'.map fun e => (e.1, customCreate cs e.2))
  have hT := combined_total (fun q hq => (hpriv q hq).assoc) (fun q hq => (hpriv q hq).comm) hC
  have hT' := combined_total (fun q hq => (hpriv q hq).assoc) (fun q hq => (hpriv q hq).comm) hC'
  set out := env.combine (customMerge cs) (l.map fun e => (e.1, customCreate cs e.2)) with hout
  set out' := env.combine (customMerge cs) (l'.map fun e => (e.1, customCreate cs e.2)) with hout'
  -- decisions
  have hgate : (∀ n, customGate s p sel n = .ok (customGateFn s p sel n)) ∧
      GateClose lib (out.map fun e => (⟨e.1, customGateFn s p sel e.2.1, []⟩ : Candidate K))
        (out'.map fun e => (⟨e.1, customGateFn s p sel e.2.1, []⟩ : Candidate K)) (sel.toList.map ε).sum (sel.toList.map δ).sum ∧
      0 ≤ (sel.toList.map δ).sum := by
    cases hpub : c.partitions with
    | some ps =>
      have hselN : sel = none := by
        rw [hpub] at hsel
        simpa [selectsPrivately] using hsel
      subst hselN
      have hg : ∀ n, customGate s p none n = .ok .always := by
        intro n
        simp [customGate, hs.noThresholding, hp]
      have hf : p.publicFiltered = true → ∀ r ∈ c.rows pid data, r.2.1 ∈ ps := by
        intro h r hr
        obtain ⟨x, hx, rfl⟩ := List.mem_map.mp hr
        exact hu2 h ps hpub x hx
      refine ⟨fun n => by simp only [customGateFn, hg], ?_, by simp⟩
      simp only [Option.toList_none, List.map_nil, List.sum_nil]
      refine gate_public hC.nodup hC'.nodup (fun k => ?_) (fun e => customGateFn s p none e.2.1) (fun _ => []) (fun e => ?_)
      · rw [hC.keys, hC'.keys, List.map_map, List.map_map]
        rw [hpub] at hen
        have e1 := lists_keys_public hen hf (fun _ => true) k
        have e2 := lists_keys_public hen hf (fun e => decide (e.1.1 ≠ u)) k
        rw [List.filter_eq_self.mpr fun _ _ => rfl] at e1
        rw [hl, hl', hpub]
        exact e1.trans e2.symm
      · simp only [customGateFn, hg]
    | none =>
      obtain ⟨hmc, hpf⟩ := hs.hidden hpub
      obtain ⟨l0, m, hl0, hm1, hl0p, hm⟩ := maxRows_ok hs.bounds hmc
      have hsp : selectsPrivately p c.partitions = true := by
        rw [hpub]
        simp [selectsPrivately, hs.noThresholding, hpf, hp]
      obtain ⟨i, hi⟩ : ∃ i, sel = some i := by
        rw [hsp] at hsel
        exact Option.isSome_iff_exists.mp hsel
      subst hi
      have hsi := hsi i rfl
      have hδ := hsi.pos (by simp)
      obtain ⟨hF, hdp⟩ := selection_law hlib.selection p.strategy p.preThreshold hsi.eps hδ hl0
      obtain ⟨E, hE1, hE2, hE3⟩ := count_facts env.backend henv.backend henv.keyLocal p hs.bounds hmc _ _ c.partitions _ u hu1 ha ha'
      have hg : ∀ n, customGate s p (some i) n
          = .ok (.select p.strategy (ε i) (δ i) l0 p.preThreshold (divideAndRoundUp n m)) := by
        intro n
        have : p.postThresholding = false := hs.noThresholding
        simp only [customGate, this, Bool.false_eq_true, if_false]
        rw [hm, hl0p]
        simp only [natArg, selectGate, hsi.eq, computed]
      refine ⟨fun n => by simp only [customGateFn, hg], ?_, by simpa using hδ.le⟩
      simp only [Option.toList_some, List.map_cons, List.map_nil, List.sum_cons, List.sum_nil, add_zero]
      have hlaw : ∀ (w : List (K × List V)) (o : List (K × ℕ × List A)),
          (∀ e ∈ o, e.2 = ((valuesOf e.1 w).length, z.map fun q => (cls q.1).total p (valuesOf e.1 w))) → ∀ e ∈ o,
          (customGateFn s p (some i) e.2.1).law lib = (coin (lib.keep p.strategy (ε i) (δ i) l0 p.preThreshold
            (divideAndRoundUp (valuesOf e.1 (w.map fun e => (e.1, customCreate cs e.2))).length m))).map fun b => (b, (0 : ℝ)) := by
        intro w o hw e he
        simp only [customGateFn, hg]
        rw [hw e he, valuesOf_map_values, List.length_map]
        rfl
      exact gate_private hC hC' hF hdp E hm1 hE1 (hE2 l0 hl0p) (hE3 m hm) (fun e => customGateFn s p (some i) e.2.1) (fun _ => [])
        (hlaw l out hT) (hlaw l' out' hT')
  obtain ⟨hg1, hg2, hg3⟩ := hgate
  -- the candidates
  let cand : K × ℕ × List A → CustomCandidate K O := fun e => ⟨e.1, customGateFn s p sel e.2.1, customCompute cs e.2⟩
  have heval : ∀ o : List (K × ℕ × List A), (o.mapM fun x =>
      match customGate s p sel x.2.1 with
      | .error e => (.error e : Except Err (CustomCandidate K O))
      | .ok g => .ok ⟨x.1, g, customCompute cs x.2⟩) = .ok (o.map cand) := by
    intro o
    refine mapM_ok' _ _ _ fun e _ => ?_
    rw [hg1]
  have hx : evalCustom cls s st env pid sel data c = .ok (out.map cand) := by
    simp only [evalCustom]
    rw [hready]
    dsimp only
    rw [← hp, ha]
    exact heval out
  have hx' : evalCustom cls s st env pid sel (removeId pid u data) c = .ok (out'.map cand) := by
    simp only [evalCustom]
    rw [hready]
    dsimp only
    rw [← hp, customRows_removeId, ha']
    exact heval out'
  refine ⟨_, _, hx, hx', ?_⟩
  -- outputs
  let val : (K → List (List V)) → ℕ → K → Measure O := fun X i k =>
    (z.map fun q => (cls q.1).compute p (q.2.map fun i => (ε i, δ i)) ((cls q.1).total p (X k))).getD i (Measure.dirac o0)
  have hdec : ∀ o : List (K × ℕ × List A), customDecision lib (o.map cand)
      = decisionLaw lib (o.map fun e => (⟨e.1, customGateFn s p sel e.2.1, []⟩ : Candidate K)) := by
    intro o
    rw [customDecision_eq, List.map_map]; rfl
  have hvp : ∀ (X : K → List (List V)) (i : ℕ) (k : K), IsProbabilityMeasure (val X i k) := by
    intro X i k
    simp only [val]
    rw [List.getD_eq_getElem?_getD]
    cases hh : (z.map fun q => (cls q.1).compute p (q.2.map fun i => (ε i, δ i)) ((cls q.1).total p (X k)))[i]? with
    | none => rw [Option.getD_none]; infer_instance
    | some μ =>
      obtain ⟨q, hq, rfl⟩ := List.mem_map.mp (List.mem_of_getElem? hh)
      exact (hpriv q hq).prob _ (hvalid q hq) _
  have hnum : ∀ (w : List (K × List V)) (o : List (K × ℕ × List A)),
      (∀ e ∈ o, e.2 = ((valuesOf e.1 w).length, z.map fun q => (cls q.1).total p (valuesOf e.1 w))) → ∀ k i,
      (customOutput o0 (o.map cand) k i = if i ∈ List.range z.length then val (fun k => valuesOf k w) i k else Measure.dirac o0) ∨
        customDecision lib (o.map cand) k = Measure.dirac (false, 0) := by
    intro w o ho k i
    unfold customOutput customDecision
    cases hf : (o.map cand).find? fun c => decide (c.key = k) with
    | none => right; rfl
    | some y =>
      left
      have hkey : y.key = k := by simpa using List.find?_some hf
      obtain ⟨e, he, rfl⟩ := List.mem_map.mp (List.mem_of_find?_eq_some hf)
      have hk : e.1 = k := hkey
      subst hk
      dsimp only [cand]
      rw [ho e he, customCompute_map]
      simp only [val]
      by_cases hi : i < z.length
      · rw [if_pos (List.mem_range.mpr hi)]
      · rw [if_neg (by simpa using hi), getD_of_ge _ _ (by simpa using hi)]
  have hnp : ∀ (w : List (K × List V)) (o : List (K × ℕ × List A)),
      (∀ e ∈ o, e.2 = ((valuesOf e.1 w).length, z.map fun q => (cls q.1).total p (valuesOf e.1 w))) → ∀ k i,
      IsProbabilityMeasure (customOutput o0 (o.map cand) k i) := by
    intro w o ho k i
    unfold customOutput
    cases hf : (o.map cand).find? fun c => decide (c.key = k) with
    | none => dsimp only; infer_instance
    | some y =>
      obtain ⟨e, he, rfl⟩ := List.mem_map.mp (List.mem_of_find?_eq_some hf)
      dsimp only [cand]
      rw [ho e he, customCompute_map]
      exact hvp (fun k => valuesOf k w) i e.1
  have hclose : ∀ i ∈ List.range z.length,
      Close ((z.map fun q => (q.2.map ε).sum).getD i 0) ((z.map fun q => (q.2.map δ).sum).getD i 0)
        (val (fun k => valuesOf k l) i) (val (fun k => valuesOf k l') i) ∧
      Close ((z.map fun q => (q.2.map ε).sum).getD i 0) ((z.map fun q => (q.2.map δ).sum).getD i 0)
        (val (fun k => valuesOf k l') i) (val (fun k => valuesOf k l) i) := by
    intro i hi
    have hi : i < z.length := List.mem_range.mp hi
    have hq := List.getElem_mem hi
    have hsamp : (cls z[i].1).sampling = true → c.sampling cls = true := by
      intro h
      unfold CustomCall.sampling
      rw [List.any_eq_true]
      exact ⟨_, hmem _ hq, h⟩
    have := (hpriv _ hq).dp _ (hvalid _ hq) (fun k => valuesOf k l) (fun k => valuesOf k l') (entriesOf u en) (userEntries_weaken hE hsamp) hperm
    simp only [List.map_map, Function.comp_def] at this
    have hv : ∀ X : K → List (List V), val X i = fun k =>
        (cls z[i].1).compute p (z[i].2.map fun i => (ε i, δ i)) ((cls z[i].1).total p (X k)) := by
      intro X
      funext k
      simp only [val]
      rw [getD_of_lt _ _ (by simpa using hi), List.getElem_map]
    rw [hv, hv, getD_of_lt _ _ (by simpa using hi), getD_of_lt _ _ (by simpa using hi), List.getElem_map,
      List.getElem_map]
    exact this
  have hsum : ∀ f : ℕ → ℝ, ((List.range z.length).map fun i => (z.map fun q => (q.2.map f).sum).getD i 0).sum
      = (((z.map Prod.snd).flatten).map f).sum := by
    intro f
    rw [List.map_flatten, List.sum_flatten, List.map_map, List.map_map]
    congr 1
    apply List.ext_getElem
    · simp
    · intro i h1 h2
      have hi : i < z.length := by simpa using h1
      rw [List.getElem_map, List.getElem_range, List.getElem_map, getD_of_lt _ _ (by simpa using hi), List.getElem_map]
      rfl
  refine ⟨{ ge := (sel.toList.map ε).sum, gd := (sel.toList.map δ).sum, labels := List.range z.length,
            val := val fun k => valuesOf k l, val' := val fun k => valuesOf k l',
            ve := fun i => (z.map fun q => (q.2.map ε).sum).getD i 0, vd := fun i => (z.map fun q => (q.2.map δ).sum).getD i 0,
            prob := by rw [hdec]; exact hg2.prob, prob' := by rw [hdec]; exact hg2.prob',
            num_prob := hnp l out hT, num_prob' := hnp l' out' hT', nodup := List.nodup_range,
            val_eq := hnum l out hT, val_eq' := hnum l' out' hT',
            val_prob := hvp _, val_prob' := hvp _, gd_nonneg := hg3, vd_nonneg := ?_,
            close := by rw [hdec, hdec]; exact hg2.close, close' := by rw [hdec, hdec]; exact hg2.close',
            val_close := fun i hi => (hclose i hi).1, val_close' := fun i hi => (hclose i hi).2 }, ?_, ?_⟩
  · intro i hi
    have hi : i < z.length := List.mem_range.mp hi
    rw [getD_of_lt _ _ (by simpa using hi), List.getElem_map]
    have hq := (hok _ (List.getElem_mem hi)).2
    apply List.sum_nonneg
    intro y hy
    obtain ⟨j, hj, rfl⟩ := List.mem_map.mp hy
    obtain ⟨r, -, hr⟩ := forall₂_mem hq hj
    exact hr.delta
  · unfold GPair.e
    rw [hsum, List.map_append, List.sum_append, add_comm]
  · unfold GPair.d
    rw [hsum, List.map_append, List.sum_append, add_comm]

end PDP.EndToEnd
