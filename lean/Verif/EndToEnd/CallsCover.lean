import Verif.EndToEnd.CallsRuns

/-!
# Nothing is left out of what is observed (C62)
-/

set_option linter.unusedSectionVars false

namespace PDP.EndToEnd

open PDP PDP.Engine MeasureTheory
open PDP.Budget (State Op MechType)

variable {R P K : Type} [DecidableEq P] [DecidableEq K]

theorem mapM_inv {α β ε : Type} {f : α → Except ε β} {l : List α} {r : List β} (h : l.mapM f = .ok r) :
    List.Forall₂ (fun a b => f a = .ok b) l r := by
  induction l generalizing r with
  | nil =>
    rw [List.mapM_nil] at h
    cases h
    exact .nil
  | cons a l ih =>
    rw [List.mapM_cons] at h
    rcases ha : f a with e | b
    · rw [ha] at h; cases h
    · rw [ha] at h
      rcases hl : l.mapM f with e | bs
      · simp only [hl] at h; cases h
      · simp only [hl] at h
        cases h
        exact .cons ha (ih hl)

theorem forall₂_filter {α β : Type} {Q : α → β → Prop} {p : α → Bool} {q : β → Bool} (hpq : ∀ a b, Q a b → p a = q b)
    {l : List α} {r : List β} (h : List.Forall₂ Q l r) : List.Forall₂ Q (l.filter p) (r.filter q) := by
  induction h with
  | nil => exact .nil
  | @cons a b l r hab _ ih =>
    by_cases hp : p a = true
    · rw [List.filter_cons_of_pos hp, List.filter_cons_of_pos (by rw [← hpq a b hab]; exact hp)]
      exact .cons hab ih
    · rw [List.filter_cons_of_neg hp, List.filter_cons_of_neg (by rw [← hpq a b hab]; exact hp)]
      exact ih

theorem mapM_of_forall₂ {α β ε : Type} {f : α → Except ε β} {l : List α} {r : List β}
    (h : List.Forall₂ (fun a b => f a = .ok b) l r) : l.mapM f = .ok r := by
  induction h with
  | nil => rfl
  | cons hab _ ih => rw [List.mapM_cons, hab, ih]; rfl

theorem forall₂_mem {α β : Type} {Q : α → β → Prop} {l : List α} {r : List β} (h : List.Forall₂ Q l r) {b : β} (hb : b ∈ r) :
    ∃ a ∈ l, Q a b := by
  induction h with
  | nil => simp at hb
  | cons hab _ ih =>
    rcases List.mem_cons.mp hb with rfl | hb
    · exact ⟨_, List.mem_cons_self .., hab⟩
    · obtain ⟨a, ha, h⟩ := ih hb
      exact ⟨a, List.mem_cons_of_mem _ ha, h⟩

theorem forall₂_map {α β γ : Type} {Q : α → β → Prop} {l : List α} {r : List β} (h : List.Forall₂ Q l r) (f : α → γ) (g : β → γ)
    (hfg : ∀ a b, Q a b → g b = f a) : r.map g = l.map f := by
  induction h with
  | nil => rfl
  | cons hab _ ih => rw [List.map_cons, List.map_cons, hfg _ _ hab, ih]

theorem find_unique {α κ : Type} [DecidableEq κ] (f : α → κ) {l : List α} (hn : (l.map f).Nodup) {a : α} (ha : a ∈ l) :
    l.find? (fun x => f x = f a) = some a := by
  induction l with
  | nil => simp at ha
  | cons b l ih =>
    rw [List.map_cons, List.nodup_cons] at hn
    rw [List.find?_cons]
    by_cases hb : f b = f a
    · simp only [hb, decide_true]
      rcases List.mem_cons.mp ha with rfl | ha
      · rfl
      · exact absurd (List.mem_map.mpr ⟨a, ha, hb.symm⟩) hn.1
    · simp only [hb, decide_false]
      rcases List.mem_cons.mp ha with rfl | ha
      · exact absurd rfl hb
      · exact ih hn.2 ha

/-! ### Decisions -/

/-- A candidate is kept by given decisions of the selector for partitions and counts. -/
def Candidate.kept (keep : K → ℕ → Bool) (c : Candidate K) : Bool :=
  match c.gate with
  | .select _ _ _ _ _ n => keep c.key n
  | _ => true

theorem selectGate_count {s : Specs} {i : ℕ} {st : Strategy} {l0 : ℕ} {pre : Option ℕ} {n : ℕ} {g : Gate}
    (h : selectGate s i st l0 pre n = .ok g) : ∃ e d, g = .select st e d l0 pre n := by
  unfold selectGate at h
  split at h <;> cases h
  exact ⟨_, _, rfl⟩

/-- **C62** (what is released by `aggregate`).  For any decisions `keep` of the partition selector, the engine computes metrics
for exactly the candidates that are kept: their accumulators have the keys and noisy numbers of those candidates. -/
theorem C62_aggregate_releases_the_kept (sigma : ℝ → ℝ → ℝ → ℝ) (s : Specs) (env : Env K) (pid : R → P) (b : Built)
    (data : List R) (p : Params) (pub : Option (List K)) (key : R → K) (value : R → ℚ)
    (hb : b.selection.isSome = selectsPrivately p pub) {L : List (Candidate K)}
    (hL : evalCall sigma s env pid b data (.aggregate p pub key value) = .ok L) (keep : K → ℕ → Bool) :
    ∃ out, partitionAccumulators env.backend (combinersOf sigma p b.parts) (env.combine (Combiner.compound _).merge) keep p pub
        (extract pid key value data) = .ok out ∧
      out.mapM (candidate sigma s p b) = .ok (L.filter (Candidate.kept keep)) := by
  simp only [evalCall] at hL
  unfold partitionAccumulators at hL ⊢
  rcases ha : accumulators env.backend p (Combiner.compound (combinersOf sigma p b.parts)).sampling
      (Combiner.compound (combinersOf sigma p b.parts)).create pub (extract pid key value data) with e | a
  · rw [ha] at hL; cases hL
  · rw [ha] at hL
    by_cases hsel : selectsPrivately p pub = true
    · simp only [hsel, if_true] at hL ⊢
      rw [hsel, Option.isSome_iff_exists] at hb
      obtain ⟨i, hi⟩ := hb
      rcases hm : maxRowsPerId p with e | m
      · rw [hm] at hL; cases hL
      · rw [hm] at hL
        have h1 : (selectPrivate (fun _ _ => true) m (env.combine (Combiner.compound (combinersOf sigma p b.parts)).merge a))
            = env.combine (Combiner.compound (combinersOf sigma p b.parts)).merge a := by
          unfold selectPrivate
          exact List.filter_eq_self.mpr fun _ _ => rfl
        have hL' : (selectPrivate (fun _ _ => true) m (env.combine (Combiner.compound (combinersOf sigma p b.parts)).merge a)).mapM
            (candidate sigma s p b) = .ok L := hL
        rw [h1] at hL'
        refine ⟨_, rfl, mapM_of_forall₂ ?_⟩
        unfold selectPrivate
        refine forall₂_filter ?_ (mapM_inv hL')
        intro e c hc
        unfold candidate at hc
        split at hc
        · rename_i g l hg hl
          cases hc
          unfold gateOf at hg
          rw [hi] at hg
          simp only [hm] at hg
          rcases hn : natArg p.maxPartitions with err | l0
          · rw [hn] at hg; cases hg
          · rw [hn] at hg
            obtain ⟨x, y, rfl⟩ := selectGate_count hg
            rfl
        · cases hc
        · cases hc
    · simp only [hsel] at hL ⊢
      have hL' : (env.combine (Combiner.compound (combinersOf sigma p b.parts)).merge a).mapM
            (candidate sigma s p b) = .ok L := hL
      refine ⟨_, rfl, ?_⟩
      have hk : L.filter (Candidate.kept keep) = L := by
        rw [List.filter_eq_self]
        intro c hc
        have hsn : b.selection = none := by
          rw [← Option.not_isSome_iff_eq_none, hb]; exact hsel
        obtain ⟨e, -, he⟩ := forall₂_mem (mapM_inv hL') hc
        unfold candidate at he
        split at he
        · rename_i g l hg hl
          cases he
          unfold gateOf at hg
          rw [hsn] at hg
          dsimp only at hg
          split at hg
          · split at hg
            · unfold thresholdGate at hg
              split at hg
              · cases hg
              · split at hg
                · cases hg
                · cases hg
                · cases hg; rfl
            · cases hg
          · cases hg; rfl
        · cases he
        · cases he
      rw [hk]
      exact hL'

/-- **C62** (what is released by `select_partitions`).  For any decisions `keep` of the partition selector, `select_partitions`
returns exactly the keys of the candidates that are kept. -/
theorem C62_select_releases_the_kept (sigma : ℝ → ℝ → ℝ → ℝ) (s : Specs) (env : Env K) (pid : R → P) (b : Built)
    (data : List R) (p : PDP.Private.SelectParams) (key : R → K) {L : List (Candidate K)}
    (hL : evalCall sigma s env pid b data (.select p key) = .ok L) (keep : K → ℕ → Bool) :
    selectPartitions env.backend (env.combine (Combiner.compound _).merge) keep p.maxPartitions
        (data.map fun r => (pid r, key r)) = (L.filter (Candidate.kept keep)).map Candidate.key := by
  simp only [evalCall] at hL
  rcases hi : b.selection with _ | i
  · rw [hi] at hL; cases hL
  · rw [hi] at hL
    dsimp only at hL
    have h := mapM_inv hL
    have h2 := forall₂_filter (p := fun e => keep e.1 (divideAndRoundUp (Combiner.rowCount e.2) 1)) (q := Candidate.kept keep) ?_ h
    · unfold selectPartitions selectPrivate
      unfold selectAccumulators at h2
      refine (forall₂_map h2 Prod.fst Candidate.key ?_).symm
      intro e c hc
      split at hc
      · cases hc; rfl
      · cases hc
    · intro e c hc
      split at hc
      · rename_i g hg
        cases hc
        obtain ⟨x, y, rfl⟩ := selectGate_count hg
        rfl
      · cases hc

/-! ### Coverage -/

/-- The partitions that a call may release: those of the data, and the public partitions. -/
def Call.partitions (data : List R) : Call R K → List K
  | .aggregate _ pub key _ => pub.getD [] ++ data.map key
  | .select _ key => data.map key

theorem evalParts_labels (sigma : ℝ → ℝ → ℝ → ℝ) (s : Specs) (p : Params) (k : K) (parts : List Part)
    (a : Combiner.AccTuple (combinersOf sigma p parts)) {l : List (Noisy K)} (h : evalParts sigma s p k parts a = .ok l) :
    (l.map fun n => (n.spec, n.comp)) = (flat sigma p parts).map fun x => (x.2.spec, x.2.comp) := by
  induction parts generalizing l with
  | nil =>
    simp only [evalParts, Except.ok.injEq] at h
    subst h; rfl
  | cons part parts ih =>
    simp only [evalParts] at h
    rcases h1 : evalView s k (view sigma p part) a.1 with e | x
    · rw [h1] at h; cases h
    · rw [h1] at h
      rcases h2 : evalParts sigma s p k parts a.2 with e | y
      · simp only [h2] at h; cases h
      · simp only [h2] at h
        cases h
        rw [List.map_append, ih a.2 h2]
        simp only [flat, List.map_append, List.map_map]
        congr 1
        unfold evalView at h1
        have h3 := mapM_inv h1
        clear h1
        generalize (view sigma p part).numbers = ns at h3
        induction h3 with
        | nil => rfl
        | @cons n m ns ms hab _ ih' =>
          rcases hm : n.mech (s n.spec) with e | mm
          · simp only [hm] at hab; cases hab
          · simp only [hm] at hab
            cases hab
            rw [List.map_cons, List.map_cons, ih']
            rfl

theorem combine_keys {A : Type} {merge : A → A → A} {comb : List (K × A) → List (K × A)} (h : LawfulCombine merge comb)
    (col : List (K × A)) : ((comb col).map Prod.fst).Nodup ∧ ∀ e ∈ comb col, e.1 ∈ col.map Prod.fst :=
  ⟨(h col).nodup, fun e he => ((h col).keys e.1).mp (List.mem_map.mpr ⟨e, he, rfl⟩)⟩

theorem candidate_facts {sigma : ℝ → ℝ → ℝ → ℝ} {s : Specs} {p : Params} {b : Built}
    {e : K × (Combiner.compound (combinersOf sigma p b.parts)).Acc} {c : Candidate K}
    (h : candidate sigma s p b e = .ok c) : c.key = e.1 ∧
      (c.numbers.map fun n => (n.spec, n.comp)) = (flat sigma p b.parts).map fun x => (x.2.spec, x.2.comp) := by
  unfold candidate at h
  split at h
  · rename_i g l hg hl
    cases h
    exact ⟨rfl, evalParts_labels sigma s p e.1 b.parts e.2.2 hl⟩
  · cases h
  · cases h

theorem call_cover {fmt : ℚ → String} {sigma : ℝ → ℝ → ℝ → ℝ} {c : Call R K} (hc : c.SupportedAny) {rs rs' : List Request}
    {b : Built} (hb : build fmt rs c = (.ok b, rs')) : ∃ S : Finset (ℕ × ℕ), ∀ (s : Specs) (env : Env K), env.Lawful →
      ∀ (pid : R → P) (data : List R) (L : List (Candidate K)), evalCall sigma s env pid b data c = .ok L →
      (L.map Candidate.key).Nodup ∧ ∀ x ∈ L, x.key ∈ c.partitions data ∧
        (x.numbers.map fun n => (n.spec, n.comp)).Nodup ∧ ∀ n ∈ x.numbers, (n.spec, n.comp) ∈ S := by
  obtain ⟨-, -, -, hreq, -⟩ := build_requests hc hb
  cases c with
  | select p key =>
    refine ⟨∅, fun s env henv pid data L hL => ?_⟩
    simp only [evalCall] at hL
    rcases hi : b.selection with _ | i
    · rw [hi] at hL; cases hL
    · rw [hi] at hL
      dsimp only at hL
      have h := mapM_inv hL
      have h' : List.Forall₂ (fun (e : K × (Combiner.compound ([] : List (Combiner Unit))).Acc) (x : Candidate K) =>
          x.key = e.1 ∧ x.numbers = []) _ L := h.imp (by
        intro e x hx
        split at hx
        · cases hx; exact ⟨rfl, rfl⟩
        · cases hx)
      unfold selectAccumulators at h'
      obtain ⟨hn, hk⟩ := combine_keys (henv.combine (Combiner.compound ([] : List (Combiner Unit))).merge)
        (((env.backend.groupByKey (data.map fun r => (pid r, key r))).flatMap (sampleUnique env.backend p.maxPartitions)).map
          fun e => (e.2, (Combiner.compound ([] : List (Combiner Unit))).create []))
      have hmap := forall₂_map h' Prod.fst Candidate.key fun a b h => h.1
      refine ⟨hmap ▸ hn, fun x hx => ?_⟩
      obtain ⟨e, he, h1, h2⟩ := forall₂_mem h' hx
      rw [h2]
      refine ⟨?_, by simp, by simp⟩
      rw [h1]
      obtain ⟨y, hy, hye⟩ := List.mem_map.mp (hk e he)
      obtain ⟨z, hz, rfl⟩ := List.mem_map.mp hy
      have := (boundedPairs_spec env.backend henv.backend p.maxPartitions hc.1 (data.map fun r => (pid r, key r))).2.1 z hz
      obtain ⟨r, hr, hrz⟩ := List.mem_map.mp this
      refine List.mem_map.mpr ⟨r, hr, ?_⟩
      rw [← hye, ← hrz]
  | aggregate p pub key value =>
    obtain ⟨⟨rs1, hcc⟩, hsel⟩ := build_aggregate hb
    have hs : SupportedAny p pub := hc
    have hlab := (flat_any sigma p b.parts (parts_ok_any hs hcc).1 hreq.nodup).1
    refine ⟨((flat sigma p b.parts).map fun x => (x.2.spec, x.2.comp)).toFinset, fun s env henv pid data L hL => ?_⟩
    simp only [evalCall] at hL
    unfold partitionAccumulators at hL
    obtain ⟨entries, hent, hacc⟩ := accumulators_entries env.backend henv.backend p hs.bounds
      (Combiner.compound (combinersOf sigma p b.parts)).sampling (Combiner.compound (combinersOf sigma p b.parts)).create pub
      (extract pid key value data)
    rw [hacc] at hL
    set a := addEmptyPublic (Combiner.compound (combinersOf sigma p b.parts)).create pub
      (entries.map fun e => (e.1.2, (Combiner.compound (combinersOf sigma p b.parts)).create e.2)) with hadef
    have hkeys : ∀ k ∈ a.map Prod.fst, k ∈ pub.getD [] ++ data.map key := by
      intro k hk
      have hdata : k ∈ (entries.map fun e => (e.1.2, (Combiner.compound (combinersOf sigma p b.parts)).create e.2)).map
          Prod.fst → k ∈ data.map key := by
        intro h
        simp only [List.map_map, List.mem_map, Function.comp] at h
        obtain ⟨e, he, rfl⟩ := h
        obtain ⟨r, hr, -, h2⟩ := hent.mem_data e he
        have hr' : r ∈ extract pid key value data := by
          unfold dropPartitions at hr
          cases pub with
          | none => exact hr
          | some ps =>
            dsimp only at hr
            split at hr
            · exact hr
            · exact (List.mem_filter.mp hr).1
        obtain ⟨x, hx, rfl⟩ := List.mem_map.mp hr'
        exact List.mem_map.mpr ⟨x, hx, h2⟩
      rw [hadef] at hk
      unfold addEmptyPublic at hk
      cases pub with
      | none => exact List.mem_append_right _ (hdata hk)
      | some ps =>
        rw [List.map_append, List.mem_append] at hk
        rcases hk with hk | hk
        · exact List.mem_append_right _ (hdata hk)
        · simp only [List.map_map, List.mem_map, Function.comp] at hk
          obtain ⟨k', hk', rfl⟩ := hk
          exact List.mem_append_left _ hk'
    have hL' : (env.combine (Combiner.compound (combinersOf sigma p b.parts)).merge a).mapM (candidate sigma s p b) = .ok L := by
      by_cases h : selectsPrivately p pub = true
      · simp only [h, if_true] at hL
        rcases hm : maxRowsPerId p with e | m
        · rw [hm] at hL; cases hL
        · rw [hm] at hL
          have h1 : (selectPrivate (fun _ _ => true) m (env.combine (Combiner.compound (combinersOf sigma p b.parts)).merge a))
              = env.combine (Combiner.compound (combinersOf sigma p b.parts)).merge a := by
            unfold selectPrivate
            exact List.filter_eq_self.mpr fun _ _ => rfl
          rw [← h1]
          exact hL
      · simp only [h] at hL
        exact hL
    obtain ⟨hn, hk⟩ := combine_keys (henv.combine (Combiner.compound (combinersOf sigma p b.parts)).merge) a
    have h := mapM_inv hL'
    have hmap := forall₂_map h Prod.fst Candidate.key fun a b h => (candidate_facts h).1
    refine ⟨hmap ▸ hn, fun x hx => ?_⟩
    obtain ⟨e, he, hce⟩ := forall₂_mem h hx
    obtain ⟨h1, h2⟩ := candidate_facts hce
    refine ⟨?_, by rw [h2]; exact hlab, fun n hn => ?_⟩
    · rw [h1]; exact hkeys _ (hk e he)
    · rw [List.mem_toFinset, ← h2]
      exact List.mem_map.mpr ⟨n, hn, rfl⟩

theorem partitions_mono {data data' : List R} (h : ∀ r ∈ data', r ∈ data) (c : Call R K) :
    ∀ k ∈ c.partitions data', k ∈ c.partitions data := by
  intro k hk
  have hm : ∀ key : R → K, k ∈ data'.map key → k ∈ data.map key := by
    intro key hk
    obtain ⟨r, hr, rfl⟩ := List.mem_map.mp hk
    exact List.mem_map.mpr ⟨r, h r hr, rfl⟩
  cases c with
  | select p key => exact hm key hk
  | aggregate p pub key value =>
    rcases List.mem_append.mp hk with hk | hk
    · exact List.mem_append_left _ hk
    · exact List.mem_append_right _ (hm key hk)

theorem observed_cover (fmt : ℚ → String) (lib : Library) (pid : R → P) (data : List R) (cs : List (Call R K))
    (hs : ∀ c ∈ cs, c.Supported) {rs : List Request} {bs ops} (hp : planCalls fmt rs cs = .ok (bs, ops)) :
    ∃ (U : Finset (ℕ × K)) (S : Finset (ℕ × ℕ)), ∀ (s : Specs) (env : ℕ → Env K), (∀ j, (env j).Lawful) →
      ∀ data' : List R, (∀ r ∈ data', r ∈ data) → ∀ L, evalCalls lib.sigma s env pid data' 0 cs bs = .ok L →
      ∀ j, ∀ c ∈ L.getD j [], (j, c.key) ∈ U ∧ decisionLaw lib (L.getD j []) c.key = c.gate.law lib ∧
        ∀ n ∈ c.numbers, (n.spec, n.comp) ∈ S ∧ numberLaw (L.getD j []) c.key (n.spec, n.comp) = n.law := by
  have key : ∀ (cs : List (Call R K)) (j0 : ℕ) (rs : List Request) (bs ops), (∀ c ∈ cs, c.Supported) →
      planCalls fmt rs cs = .ok (bs, ops) →
      ∃ (U : Finset (ℕ × K)) (S : Finset (ℕ × ℕ)), ∀ (s : Specs) (env : ℕ → Env K), (∀ j, (env j).Lawful) →
      ∀ data' : List R, (∀ r ∈ data', r ∈ data) → ∀ L, evalCalls lib.sigma s env pid data' j0 cs bs = .ok L →
      ∀ j, ∀ c ∈ L.getD j [], (j0 + j, c.key) ∈ U ∧ decisionLaw lib (L.getD j []) c.key = c.gate.law lib ∧
        ∀ n ∈ c.numbers, (n.spec, n.comp) ∈ S ∧ numberLaw (L.getD j []) c.key (n.spec, n.comp) = n.law := by
    intro cs
    induction cs with
    | nil =>
      intro j0 rs bs ops _ h
      refine ⟨∅, ∅, fun s env _ data' _ L hL j c hc => ?_⟩
      simp only [evalCalls, Except.ok.injEq] at hL
      subst hL
      simp at hc
    | cons c cs ih =>
      intro j0 rs bs ops hs h
      rcases hx : build fmt rs c with ⟨r, rs'⟩
      rw [planCalls, hx] at h
      rcases r with e | b
      · simp at h
      · dsimp only at h
        rcases hp : planCalls fmt rs' cs with e | ⟨bs', ops'⟩
        · rw [hp] at h; simp at h
        · rw [hp] at h
          simp only [Except.ok.injEq, Prod.mk.injEq] at h
          obtain ⟨rfl, rfl⟩ := h
          obtain ⟨S, hS⟩ := call_cover (P := P) (sigma := lib.sigma) (hs c (by simp)).any hx
          obtain ⟨U', S', ih⟩ := ih (j0 + 1) rs' bs' ops' (fun c hc => hs c (by simp [hc])) hp
          refine ⟨((c.partitions data).map fun k => (j0, k)).toFinset ∪ U', S ∪ S', fun s env henv data' hd L hL j x hxL => ?_⟩
          simp only [evalCalls] at hL
          rcases h1 : evalCall lib.sigma s (env j0) pid b data' c with e | y
          · rw [h1] at hL; cases hL
          · rw [h1] at hL
            rcases h2 : evalCalls lib.sigma s env pid data' (j0 + 1) cs bs' with e | L'
            · rw [h2] at hL; cases hL
            · rw [h2] at hL
              cases hL
              cases j with
              | zero =>
                have hxy : x ∈ y := hxL
                obtain ⟨hn, hall⟩ := hS s (env j0) (henv j0) pid data' y h1
                obtain ⟨g1, g2, g3⟩ := hall x hxy
                have hf : y.find? (fun c => c.key = x.key) = some x := find_unique Candidate.key hn hxy
                refine ⟨?_, ?_, fun n hn' => ⟨?_, ?_⟩⟩
                · rw [Finset.mem_union, List.mem_toFinset]
                  exact Or.inl (List.mem_map.mpr ⟨x.key, partitions_mono hd c _ g1, rfl⟩)
                · show decisionLaw lib y x.key = _
                  simp only [decisionLaw, hf]
                · exact Finset.mem_union_left _ (g3 n hn')
                · show numberLaw y x.key _ = _
                  have hf' : x.numbers.find? (fun m => (m.spec, m.comp) = (n.spec, n.comp)) = some n :=
                    find_unique (fun n : Noisy K => (n.spec, n.comp)) g2 hn'
                  simp only [numberLaw, hf, hf']
              | succ j =>
                obtain ⟨g1, g2, g3⟩ := ih s env henv data' hd L' h2 j x hxL
                refine ⟨?_, g2, fun n hn' => ⟨Finset.mem_union_right _ (g3 n hn').1, (g3 n hn').2⟩⟩
                apply Finset.mem_union_right
                rw [show j0 + (j + 1) = j0 + 1 + j by omega]
                exact g1
  obtain ⟨U, S, h⟩ := key cs 0 rs bs ops hs hp
  refine ⟨U, S, fun s env henv data' hd L hL j c hc => ?_⟩
  have := h s env henv data' hd L hL j c hc
  rwa [Nat.zero_add] at this

/-- **C62** (nothing is left out).  For every dataset there are finite sets `U` of (call, partition) and `S` of labels such that
on this dataset and on any part of it, however the computation is executed, every partition that may be released is in `U`,
every number in it has its label in `S`, and `observedLaw` takes its decision and its numbers with the distributions with which
they are released. -/
theorem C62_everything_is_observed (fmt : ℚ → String) (lib : Library) (pid : R → P) (data : List R) (cs : List (Call R K))
    (hs : ∀ c ∈ cs, c.Supported) {bs ops} (hp : planCalls fmt [] cs = .ok (bs, ops)) :
    ∃ (U : Finset (ℕ × K)) (S : Finset (ℕ × ℕ)), ∀ (s : Specs) (env : ℕ → Env K), (∀ j, (env j).Lawful) →
      ∀ data' : List R, (∀ r ∈ data', r ∈ data) → ∀ L, evalCalls lib.sigma s env pid data' 0 cs bs = .ok L →
      ∀ j, ∀ c ∈ L.getD j [], (j, c.key) ∈ U ∧ decisionLaw lib (L.getD j []) c.key = c.gate.law lib ∧
        ∀ n ∈ c.numbers, (n.spec, n.comp) ∈ S ∧ numberLaw (L.getD j []) c.key (n.spec, n.comp) = n.law :=
  observed_cover fmt lib pid data cs hs hp

end PDP.EndToEnd
