import Verif.EndToEnd.Adaptive
import Verif.EndToEnd.CallsExample
import Verif.EndToEnd.CallsRuns

/-!
# Pipelines whose later calls use the partitions that earlier calls released are private (C68)
-/

set_option linter.unusedSectionVars false

namespace PDP.EndToEnd

open PDP PDP.Engine MeasureTheory
open PDP.Engine.AddNoise (specOf)
open PDP.Budget (State Op MechType)
open PDP.Approx (Indist)

variable {R P K : Type} [DecidableEq P] [DecidableEq K]

/-! ### The budgets of the rounds -/

theorem planCalls_length {fmt : ℚ → String} : ∀ {cs : List (Call R K)} {rs : List Request} {bs ops},
    planCalls fmt rs cs = .ok (bs, ops) → bs.length = cs.length := by
  intro cs
  induction cs with
  | nil =>
    intro rs bs ops h
    simp only [planCalls, Except.ok.injEq, Prod.mk.injEq] at h
    obtain ⟨rfl, -⟩ := h
    rfl
  | cons c cs ih =>
    intro rs bs ops h
    rcases hx : build fmt rs c with ⟨r, rs'⟩
    rw [planCalls, hx] at h
    rcases r with e | b
    · simp at h
    · dsimp only at h
      rcases hp : planCalls fmt rs' cs with e | ⟨bs', ops'⟩
      · rw [hp] at h; simp at h
      · rw [hp] at h
        simp only [Except.ok.injEq, Prod.mk.injEq] at h
        obtain ⟨rfl, rfl⟩ := h
        simp [ih hp]

theorem planCalls_append {fmt : ℚ → String} (cs' : List (Call R K)) : ∀ {cs : List (Call R K)} {rs : List Request} {bs ops},
    planCalls fmt rs (cs ++ cs') = .ok (bs, ops) →
    ∃ bs1 bs2 ops1 ops2 rs', bs = bs1 ++ bs2 ∧ planCalls fmt rs cs = .ok (bs1, ops1) ∧
      planCalls fmt rs' cs' = .ok (bs2, ops2) := by
  intro cs
  induction cs with
  | nil =>
    intro rs bs ops h
    exact ⟨[], bs, [], ops, rs, rfl, rfl, h⟩
  | cons c cs ih =>
    intro rs bs ops h
    rcases hx : build fmt rs c with ⟨r, rs'⟩
    rw [List.cons_append, planCalls, hx] at h
    rcases r with e | b
    · simp at h
    · dsimp only at h
      rcases hp : planCalls fmt rs' (cs ++ cs') with e | ⟨bs', ops'⟩
      · rw [hp] at h; simp at h
      · rw [hp] at h
        simp only [Except.ok.injEq, Prod.mk.injEq] at h
        obtain ⟨rfl, rfl⟩ := h
        obtain ⟨bs1, bs2, ops1, ops2, rs2, rfl, h1, h2⟩ := ih hp
        exact ⟨b :: bs1, bs2, callOps c.weight (rs'.drop rs.length) ++ ops1, ops2, rs2, rfl, by rw [planCalls, hx]; simp only [h1],
          h2⟩

theorem Pair.d_nonneg {lib : Library} {c c' : List (Candidate K)} (p : Pair lib c c') : 0 ≤ p.d := by
  unfold Pair.d
  refine add_nonneg p.gd_nonneg (List.sum_nonneg fun x hx => ?_)
  obtain ⟨l, -, rfl⟩ := List.mem_map.mp hx
  exact p.vd_nonneg l

theorem toMechType_injective {m m' : Engine.Mechanism} (h : toMechType m = toMechType m') : m = m' := by
  cases m <;> cases m' <;> simp_all [toMechType]

/-- The rounds from some round on. -/
theorem program_rounds {lib : Library} (hlib : lib.Contract) {s : Specs} {ε δ : ℕ → ℝ} {fmt : ℚ → String}
    (env : List (Finset (ℕ × K)) → ℕ → Env K) (henv : ∀ h j, (env h j).Lawful) (pid : R → P) (data : List R) (u : P)
    {n : ℕ} (prog : Program R K n) : prog.All Call.Supported → prog.All (fun c => c.Promised pid data u) →
    ∀ (before : List (Finset (ℕ × K))) (rounds : List (List Built)),
      (∀ t, (prog.path t).map List.length = rounds.map List.length ∧
        ∃ rs ops, planCalls fmt rs (prog.path t).flatten = .ok (rounds.flatten, ops)) →
      (∀ t, ∀ x ∈ (prog.path t).flatten.zip rounds.flatten, BuiltOk s ε δ x.1.kind x.2) →
      prog.Evaluates lib.sigma s env pid data before rounds ∧
      prog.Evaluates lib.sigma s env pid (removeId pid u data) before rounds ∧
      0 ≤ ((rounds.flatten.flatMap Built.specs).map δ).sum ∧
      ∀ (U : Finset (ℕ × K)) (S : Finset (ℕ × ℕ)),
        IsProbabilityMeasure (programLaw lib s env pid data U S prog before rounds) ∧
        IsProbabilityMeasure (programLaw lib s env pid (removeId pid u data) U S prog before rounds) ∧
        Indist ((rounds.flatten.flatMap Built.specs).map ε).sum ((rounds.flatten.flatMap Built.specs).map δ).sum
          (programLaw lib s env pid data U S prog before rounds)
          (programLaw lib s env pid (removeId pid u data) U S prog before rounds) ∧
        Indist ((rounds.flatten.flatMap Built.specs).map ε).sum ((rounds.flatten.flatMap Built.specs).map δ).sum
          (programLaw lib s env pid (removeId pid u data) U S prog before rounds)
          (programLaw lib s env pid data U S prog before rounds) := by
  induction prog with
  | done =>
    intro _ _ before rounds hp _
    obtain ⟨h1, -⟩ := hp fun _ => ∅
    simp only [Program.path, List.map_nil] at h1
    have : rounds = [] := by
      rcases rounds with _ | ⟨x, l⟩
      · rfl
      · simp at h1
    subst this
    refine ⟨trivial, trivial, by simp, fun U S => ?_⟩
    have hprob : IsProbabilityMeasure (Measure.dirac () : Measure Unit) := inferInstance
    simp only [List.flatten_nil, List.flatMap_nil, List.map_nil, List.sum_nil]
    exact ⟨hprob, hprob, Indist.refl (Measure.dirac () : Measure Unit), Indist.refl (Measure.dirac () : Measure Unit)⟩
  | @round n cs next ih =>
    intro hs hu before rounds hp hbo
    obtain ⟨bs, rest, rfl, hlen⟩ : ∃ bs rest, rounds = bs :: rest ∧ cs.length = bs.length := by
      have h1 := (hp fun _ => ∅).1
      rcases rounds with _ | ⟨bs, rest⟩
      · simp [Program.path] at h1
      · simp only [Program.path, List.map_cons, List.cons.injEq] at h1
        exact ⟨bs, rest, rfl, h1.1⟩
    have hpath : ∀ t0 t, (Program.round cs next).path (fun i => Nat.casesOn i t0 t) = cs :: (next t0).path t := fun _ _ => rfl
    have split : ∀ t0 t, ∃ rs ops rs' ops', planCalls fmt rs cs = .ok (bs, ops) ∧
        planCalls fmt rs' ((next t0).path t).flatten = .ok (rest.flatten, ops') := by
      intro t0 t
      obtain ⟨-, rs, ops, h⟩ := hp (fun i => Nat.casesOn i t0 t)
      rw [hpath, List.flatten_cons, List.flatten_cons] at h
      obtain ⟨bs1, bs2, ops1, ops2, rs', heq, h1, h2⟩ := planCalls_append _ h
      obtain ⟨rfl, rfl⟩ := List.append_inj heq (by rw [planCalls_length h1, hlen])
      exact ⟨rs, ops1, rs', ops2, h1, h2⟩
    have hzip : ∀ t0 t, (cs :: (next t0).path t).flatten.zip (bs :: rest).flatten
        = cs.zip bs ++ ((next t0).path t).flatten.zip rest.flatten := by
      intro t0 t
      rw [List.flatten_cons, List.flatten_cons, List.zip_append hlen]
    obtain ⟨rs, ops, -, -, hplan, -⟩ := split ∅ fun _ => ∅
    obtain ⟨L, L', a1, a2, a3, a4, p, a5, a6⟩ := calls_pairs hlib (env before) (henv before) pid data u (cs := cs)
      (fun c hc => hs (fun _ => ∅) cs (by simp [Program.path]) c hc)
      (fun c hc => hu (fun _ => ∅) cs (by simp [Program.path]) c hc) 0 hplan (fun x hx => by
        have := hbo (fun i => Nat.casesOn i ∅ fun _ => ∅) x
        rw [hpath, hzip] at this
        exact this (List.mem_append_left _ hx))
    have hrest := fun t0 => ih t0
      (fun t ds hd c hc => hs (fun i => Nat.casesOn i t0 t) ds (by rw [hpath]; exact List.mem_cons_of_mem _ hd) c hc)
      (fun t ds hd c hc => hu (fun i => Nat.casesOn i t0 t) ds (by rw [hpath]; exact List.mem_cons_of_mem _ hd) c hc)
      (t0 :: before) rest
      (fun t => by
        have h1 := (hp (fun i => Nat.casesOn i t0 t)).1
        rw [hpath, List.map_cons, List.map_cons, List.cons.injEq] at h1
        obtain ⟨-, -, rs', ops', -, h2⟩ := split t0 t
        exact ⟨h1.2, rs', ops', h2⟩)
      (fun t x hx => by
        have := hbo (fun i => Nat.casesOn i t0 t) x
        rw [hpath, hzip] at this
        exact this (List.mem_append_right _ hx))
    have hd1 : 0 ≤ ((bs.flatMap Built.specs).map δ).sum := by
      refine le_trans (List.sum_nonneg fun x hx => ?_) a6
      obtain ⟨j, -, rfl⟩ := List.mem_map.mp hx
      exact (p j).d_nonneg
    have hd2 := (hrest ∅).2.2.1
    refine ⟨⟨⟨L, a1⟩, fun t => (hrest t).1⟩, ⟨⟨L', a2⟩, fun t => (hrest t).2.1⟩, ?_, fun U S => ?_⟩
    · rw [List.flatten_cons, List.flatMap_append, List.map_append, List.sum_append]
      exact add_nonneg hd1 hd2
    · have q1 := observedLaw_prob p U S
      have q2 := observedLaw_prob (fun j => (p j).swap) U S
      have r1 : ∀ t : Finset U, IsProbabilityMeasure (programLaw lib s env pid data U S
          (next (t.map (Function.Embedding.subtype _))) (t.map (Function.Embedding.subtype _) :: before) rest) :=
        fun t => ((hrest _).2.2.2 U S).1
      have r2 : ∀ t : Finset U, IsProbabilityMeasure (programLaw lib s env pid (removeId pid u data) U S
          (next (t.map (Function.Embedding.subtype _))) (t.map (Function.Embedding.subtype _) :: before) rest) :=
        fun t => ((hrest _).2.2.2 U S).2.1
      have e1 : programLaw lib s env pid data U S (Program.round cs next) before (bs :: rest)
          = thenLaw (observedLaw lib U S L) releasedSet fun t => programLaw lib s env pid data U S
            (next (t.map (Function.Embedding.subtype _))) (t.map (Function.Embedding.subtype _) :: before) rest := by
        rw [programLaw, List.headD_cons, a1]
        rfl
      have e2 : programLaw lib s env pid (removeId pid u data) U S (Program.round cs next) before (bs :: rest)
          = thenLaw (observedLaw lib U S L') releasedSet fun t => programLaw lib s env pid (removeId pid u data) U S
            (next (t.map (Function.Embedding.subtype _))) (t.map (Function.Embedding.subtype _) :: before) rest := by
        rw [programLaw, List.headD_cons, a2]
        rfl
      have hsum : ∀ f : ℕ → ℝ, (((bs :: rest).flatten.flatMap Built.specs).map f).sum
          = ((bs.flatMap Built.specs).map f).sum + ((rest.flatten.flatMap Built.specs).map f).sum := by
        intro f
        rw [List.flatten_cons, List.flatMap_append, List.map_append, List.sum_append]
      rw [e1, e2, hsum, hsum]
      refine ⟨thenLaw_prob _ measurableSet_released _, thenLaw_prob _ measurableSet_released _, ?_, ?_⟩
      · exact thenLaw_indist measurableSet_released ((observed_indist cs.length p a3 a4 U S).mono a5 a6)
          (fun t => ((hrest _).2.2.2 U S).2.2.1) hd1 hd2
      · exact thenLaw_indist measurableSet_released
          ((observed_indist cs.length (fun j => (p j).swap) a4 a3 U S).mono a5 a6)
          (fun t => ((hrest _).2.2.2 U S).2.2.2) hd1 hd2

/-- **C68.**  A pipeline in rounds, where the calls of a round may use the partitions that the rounds before released (for
example as public partitions), on one naive accountant with total budget `(e, d)`, is `(e, d)`-differentially private: all that
is released in all rounds together.  The random choices `ω` of contribution bounding and of the runner have any distribution
`μ`. -/
theorem C68_adaptive_pipeline_is_differentially_private (fmt : ℚ → String) (lib : Library) (hlib : lib.Contract) {e d : ℚ}
    {num ws s0} (h0 : Budget.init e d num ws = .ok s0) {n : ℕ} (prog : Program R K n) (hs : prog.All Call.Supported)
    (hd : ¬ prog.All (fun c => ¬ c.NeedsDelta) → 0 < d) {rounds ops} (hp : prog.Planned fmt rounds ops)
    (hc : (Budget.step (Budget.run s0 ops).1 .compute).2 = .unit)
    {Ω : Type} [MeasurableSpace Ω] (μ : Measure Ω) [IsProbabilityMeasure μ]
    (env : Ω → List (Finset (ℕ × K)) → ℕ → Env K) (henv : ∀ ω h j, (env ω h j).Lawful) (pid : R → P) (data : List R) (u : P)
    (hu : prog.All fun c => c.Promised pid data u) :
    let s := specOf (Budget.step (Budget.run s0 ops).1 .compute).1
    (∀ ω, prog.Evaluates lib.sigma s (env ω) pid data [] rounds ∧
      prog.Evaluates lib.sigma s (env ω) pid (removeId pid u data) [] rounds) ∧
    ∀ (U : Finset (ℕ × K)) (S : Finset (ℕ × ℕ)),
      (∀ ω, IsProbabilityMeasure (programLaw lib s (env ω) pid data U S prog [] rounds) ∧
        IsProbabilityMeasure (programLaw lib s (env ω) pid (removeId pid u data) U S prog [] rounds)) ∧
      ∀ A, MeasurableSet A →
        ∫⁻ ω, programLaw lib s (env ω) pid data U S prog [] rounds A ∂μ
          ≤ ENNReal.ofReal (Real.exp e) * ∫⁻ ω, programLaw lib s (env ω) pid (removeId pid u data) U S prog [] rounds A ∂μ
            + ENNReal.ofReal d ∧
        ∫⁻ ω, programLaw lib s (env ω) pid (removeId pid u data) U S prog [] rounds A ∂μ
          ≤ ENNReal.ofReal (Real.exp e) * ∫⁻ ω, programLaw lib s (env ω) pid data U S prog [] rounds A ∂μ
            + ENNReal.ofReal d := by
  intro s
  have hsup : ∀ t, ∀ c ∈ (prog.path t).flatten, c.Supported := by
    intro t c hc
    obtain ⟨cs, h1, h2⟩ := List.mem_flatten.mp hc
    exact hs t cs h1 c h2
  obtain ⟨hplain, new, hreq, hspecs, -, hnd⟩ := planCalls_spec (hsup fun _ => ∅) (hp fun _ => ∅).1
  obtain ⟨ε, δ, hok, hε, hδ⟩ := budgets_published hplain hreq h0 (fun r hr hne => hd fun hall => by
    obtain ⟨c, hc, hcn⟩ := hnd r hr hne
    obtain ⟨cs, g1, g2⟩ := List.mem_flatten.mp hc
    exact hall _ cs g1 c g2 hcn) hc
  have hbo : ∀ t, ∀ x ∈ (prog.path t).flatten.zip rounds.flatten, BuiltOk s ε δ x.1.kind x.2 := by
    intro t x hx
    obtain ⟨-, new', hreq', -, hrq', -⟩ := planCalls_spec (hsup t) (hp t).1
    have h := hrq' x hx
    rw [List.nil_append] at h
    have hget : ∀ i m w, new'[i]? = some ⟨m, w⟩ → SpecOk s ε δ i m := by
      intro i m w hi
      have h1 : new.map (fun r => (toMechType r.mechanism, (1 : ℤ))) = new'.map fun r => (toMechType r.mechanism, (1 : ℤ)) :=
        hreq.symm.trans hreq'
      have h2 := congrArg (fun l => l[i]?) h1
      simp only [List.getElem?_map, hi, Option.map_some] at h2
      rcases hr : new[i]? with _ | r
      · rw [hr] at h2; simp at h2
      · rw [hr] at h2
        simp only [Option.map_some, Option.some.injEq, Prod.mk.injEq, and_true] at h2
        have := hok i r hr
        rwa [toMechType_injective h2] at this
    refine ⟨fun part hpart i hi => ?_, fun i hi => ?_, h.nodup⟩
    · obtain ⟨w, hw⟩ := h.parts part hpart i hi
      exact hget i _ w hw
    · obtain ⟨w, hw⟩ := h.selection i hi
      exact hget i _ w hw
  have key := fun ω => program_rounds hlib (fmt := fmt) (env ω) (henv ω) pid data u prog hs hu [] rounds
    (fun t => ⟨(hp t).2, [], ops, (hp t).1⟩) hbo
  rw [List.length_nil] at hspecs
  rw [hspecs] at key
  refine ⟨fun ω => ⟨(key ω).1, (key ω).2.1⟩, fun U S => ⟨fun ω => ⟨((key ω).2.2.2 U S).1, ((key ω).2.2.2 U S).2.1⟩,
    fun A hA => ?_⟩⟩
  have fin : ∀ f g : Ω → ENNReal, (∀ ω, f ω ≤ ENNReal.ofReal (Real.exp e) * g ω + ENNReal.ofReal d) →
      ∫⁻ ω, f ω ∂μ ≤ ENNReal.ofReal (Real.exp e) * ∫⁻ ω, g ω ∂μ + ENNReal.ofReal d := by
    intro f g hfg
    refine (lintegral_mono hfg).trans ?_
    rw [lintegral_add_right _ measurable_const, lintegral_const_mul' _ _ ENNReal.ofReal_ne_top]
    simp
  exact ⟨fin _ _ fun ω => (((key ω).2.2.2 U S).2.2.1.mono hε hδ) A hA,
    fin _ _ fun ω => (((key ω).2.2.2 U S).2.2.2.mono hε hδ) A hA⟩

/-- **C68** (what the distribution is).  A round releases what its calls release (C62), and the rest of the program is the one for
exactly the partitions that were released; `T x` are the partitions released in the outcome `x`. -/
theorem C68_later_rounds_use_released_partitions (lib : Library) (s : Specs) (env : List (Finset (ℕ × K)) → ℕ → Env K) (pid : R → P)
    (data : List R) (U : Finset (ℕ × K)) (S : Finset (ℕ × ℕ)) {n : ℕ} (cs : List (Call R K))
    (next : Finset (ℕ × K) → Program R K n) (before : List (Finset (ℕ × K))) (bs : List Built) (rest : List (List Built))
    {L : List (List (Candidate K))} (hL : evalCalls lib.sigma s (env before) pid data 0 cs bs = .ok L)
    (hprob : ∀ t, IsProbabilityMeasure (programLaw lib s env pid data U S (next t) (t :: before) rest))
    (T : Seen U S → Finset (ℕ × K)) (hT : ∀ x k, k ∈ T x ↔ ∃ h : k ∈ U, (x.1 ⟨k, h⟩).1 = true)
    {A : Set (Seen U S × Trace U S n)} (hA : MeasurableSet A) :
    programLaw lib s env pid data U S (.round cs next) before (bs :: rest) A
      = ∫⁻ x, programLaw lib s env pid data U S (next (T x)) (T x :: before) rest {y | (x, y) ∈ A} ∂(observedLaw lib U S L) := by
  have e1 : programLaw lib s env pid data U S (Program.round cs next) before (bs :: rest)
      = thenLaw (observedLaw lib U S L) releasedSet fun t => programLaw lib s env pid data U S
        (next (t.map (Function.Embedding.subtype _))) (t.map (Function.Embedding.subtype _) :: before) rest := by
    rw [programLaw, List.headD_cons, hL]
    rfl
  have hTx : ∀ x : Seen U S, (releasedSet x).map (Function.Embedding.subtype _) = T x := by
    intro x
    ext k
    rw [hT]
    simp [releasedSet]
  have := fun t : Finset U => hprob (t.map (Function.Embedding.subtype _))
  rw [e1]
  refine (thenLaw_apply _ measurableSet_released _ hA).trans (lintegral_congr fun x => ?_)
  simp only [hTx]
  rfl

/-- The hypothesis `hprob` holds for a program with one round (for more rounds it is part of C68). -/
example (lib : Library) (s : Specs) (env : List (Finset (ℕ × K)) → ℕ → Env K) (pid : R → P) (data : List R)
    (U : Finset (ℕ × K)) (S : Finset (ℕ × ℕ)) (before : List (Finset (ℕ × K))) (rest : List (List Built)) (t : Finset (ℕ × K)) :
    IsProbabilityMeasure (programLaw lib s env pid data U S (.done : Program R K 0) (t :: before) rest) := by
  have hprob : IsProbabilityMeasure (Measure.dirac () : Measure Unit) := inferInstance
  exact hprob

/-! ### The graph does not depend on what is released -/

/-- Calls that differ at most in which partitions are public, and in their extractors. -/
def SameGraph : Call R K → Call R K → Prop
  | .aggregate p pub _ _, .aggregate p' pub' _ _ => p = p' ∧ pub.isSome = pub'.isSome
  | .select p _, .select p' _ => p = p'
  | _, _ => False

theorem sameGraph_build {fmt : ℚ → String} {rs : List Request} {c c' : Call R K} (h : SameGraph c c') :
    build fmt rs c = build fmt rs c' ∧ c.weight = c'.weight := by
  cases c <;> cases c' <;> simp only [SameGraph] at h
  · obtain ⟨rfl, h⟩ := h
    refine ⟨?_, rfl⟩
    rename_i pub _ _ pub' _ _
    have : ∀ p, selectsPrivately p pub = selectsPrivately p pub' := by
      intro p
      cases pub <;> cases pub' <;> simp_all [selectsPrivately]
    simp only [build, this]
  · subst h
    exact ⟨rfl, rfl⟩

theorem sameGraph_plan {fmt : ℚ → String} {cs cs' : List (Call R K)} (h : List.Forall₂ SameGraph cs cs') :
    ∀ rs, planCalls fmt rs cs = planCalls fmt rs cs' := by
  induction h with
  | nil => intro rs; rfl
  | cons hc _ ih =>
    intro rs
    obtain ⟨h1, h2⟩ := sameGraph_build (fmt := fmt) (rs := rs) hc
    simp only [planCalls, h1, h2, ih]

theorem forall₂_flatten {α : Type} {Q : α → α → Prop} {l l' : List (List α)} (h : List.Forall₂ (List.Forall₂ Q) l l') :
    List.Forall₂ Q l.flatten l'.flatten := by
  induction h with
  | nil => exact .nil
  | cons h1 _ ih =>
    rw [List.flatten_cons, List.flatten_cons]
    exact List.rel_append h1 ih

/-- A list cut into pieces of given lengths. -/
theorem exists_pieces {α β : Type} (ls : List (List β)) : ∀ l : List α, l.length = ls.flatten.length →
    ∃ pieces : List (List α), pieces.flatten = l ∧ ls.map List.length = pieces.map List.length := by
  induction ls with
  | nil =>
    intro l h
    exact ⟨[], (List.length_eq_zero_iff.mp (by simpa using h)).symm, rfl⟩
  | cons x ls ih =>
    intro l h
    rw [List.flatten_cons, List.length_append] at h
    obtain ⟨ps, h1, h2⟩ := ih (l.drop x.length) (by rw [List.length_drop]; omega)
    refine ⟨l.take x.length :: ps, by rw [List.flatten_cons, h1, List.take_append_drop], ?_⟩
    rw [List.map_cons, List.map_cons, h2, List.length_take, Nat.min_eq_left (by omega)]

/-- **C68** (pipelines run).  If what is released only decides which partitions are public in later calls (and what their
extractors compute), then the graph is the same for all outcomes, the driver raises no exception and `compute_budgets`
succeeds, whatever fitting announcements were made. -/
theorem C68_supported_program_runs (fmt : ℚ → String) {n : ℕ} (prog : Program R K n) (hs : prog.All Call.Supported)
    (hg : ∀ t t', List.Forall₂ (List.Forall₂ SameGraph) (prog.path t) (prog.path t')) {e d : ℚ} {num ws s0}
    (h0 : Budget.init e d num ws = .ok s0) (hd : ¬ prog.All (fun c => ¬ c.NeedsDelta) → 0 < d)
    (ha : ∀ t, AnnouncedCalls num ws (prog.path t).flatten) :
    ∃ rounds ops, prog.Planned fmt rounds ops ∧ (∀ err, Budget.Out.raised err ∉ (Budget.run s0 ops).2) ∧
      (Budget.step (Budget.run s0 ops).1 .compute).2 = .unit := by
  have hsup : ∀ c ∈ (prog.path fun _ => ∅).flatten, c.Supported := by
    intro c hc
    obtain ⟨cs, h1, h2⟩ := List.mem_flatten.mp hc
    exact hs _ cs h1 c h2
  obtain ⟨bs, ops, h1, h2, h3⟩ := C62_supported_pipeline_runs fmt _ hsup h0 (fun ⟨c, hc, hn⟩ => hd fun hall => by
    obtain ⟨cs, g1, g2⟩ := List.mem_flatten.mp hc
    exact hall _ cs g1 c g2 hn) (ha _)
  obtain ⟨rounds, rfl, hr⟩ := exists_pieces (prog.path fun _ => ∅) bs (planCalls_length h1)
  refine ⟨rounds, ops, fun t => ⟨?_, ?_⟩, h2, h3⟩
  · rw [← h1]
    exact sameGraph_plan (forall₂_flatten (hg t _)) []
  · rw [← hr]
    have := hg t fun _ => ∅
    generalize prog.path t = l at this
    generalize (prog.path fun _ => ∅) = l' at this
    induction this with
    | nil => rfl
    | cons h1 _ ih => rw [List.map_cons, List.map_cons, h1.length_eq, ih]

/-! ### Nothing is left out -/

/-- `U` and `S` contain all that may be released in any round, if the rounds before released some of their candidates: every
partition that a round may release is in `U`, every number in it has its label in `S`, and `observedLaw` takes the decision
and the numbers with the distributions with which they are released. -/
def Program.Covered (lib : Library) (s : Specs) (env : List (Finset (ℕ × K)) → ℕ → Env K) (pid : R → P) (data : List R)
    (U : Finset (ℕ × K)) (S : Finset (ℕ × ℕ)) : {n : ℕ} → Program R K n → (before : List (Finset (ℕ × K))) →
    List (List Built) → Prop
  | _, .done, _, _ => True
  | _, .round cs next, before, rounds =>
    ∀ L, evalCalls lib.sigma s (env before) pid data 0 cs (rounds.headD []) = .ok L →
      (∀ j, ∀ c ∈ L.getD j [], (j, c.key) ∈ U ∧ decisionLaw lib (L.getD j []) c.key = c.gate.law lib ∧
        ∀ n ∈ c.numbers, (n.spec, n.comp) ∈ S ∧ numberLaw (L.getD j []) c.key (n.spec, n.comp) = n.law) ∧
      ∀ t : Finset (ℕ × K), (∀ x ∈ t, ∃ c ∈ L.getD x.1 [], c.key = x.2) →
        (next t).Covered lib s env pid data U S (t :: before) rounds.tail

theorem covered_mono {lib : Library} {s : Specs} {env : List (Finset (ℕ × K)) → ℕ → Env K} {pid : R → P} {data : List R}
    {U U' : Finset (ℕ × K)} {S S' : Finset (ℕ × ℕ)} (hU : U ⊆ U') (hS : S ⊆ S') {n : ℕ} (prog : Program R K n) :
    ∀ before rounds, prog.Covered lib s env pid data U S before rounds → prog.Covered lib s env pid data U' S' before rounds := by
  induction prog with
  | done => intro _ _ _; trivial
  | round cs next ih =>
    intro before rounds h L hL
    obtain ⟨h1, h2⟩ := h L hL
    refine ⟨fun j c hc => ?_, fun t ht => ih t _ _ (h2 t ht)⟩
    obtain ⟨g1, g2, g3⟩ := h1 j c hc
    exact ⟨hU g1, g2, fun n hn => ⟨hS (g3 n hn).1, (g3 n hn).2⟩⟩

/-- **C68** (nothing is left out).  For every dataset there are finite sets `U` and `S` which contain all that the program may
release, on this dataset and on any part of it, however the computation is executed. -/
theorem C68_everything_is_observed (fmt : ℚ → String) (lib : Library) (pid : R → P) (data : List R) {n : ℕ}
    (prog : Program R K n) (hs : prog.All Call.Supported) {rounds ops} (hp : prog.Planned fmt rounds ops) :
    ∃ (U : Finset (ℕ × K)) (S : Finset (ℕ × ℕ)), ∀ (s : Specs) (env : List (Finset (ℕ × K)) → ℕ → Env K),
      (∀ h j, (env h j).Lawful) → ∀ data' : List R, (∀ r ∈ data', r ∈ data) →
        prog.Covered lib s env pid data' U S [] rounds := by
  have key : ∀ {n : ℕ} (prog : Program R K n), prog.All Call.Supported → ∀ rounds,
      (∀ t, (prog.path t).map List.length = rounds.map List.length ∧
        ∃ rs ops, planCalls fmt rs (prog.path t).flatten = .ok (rounds.flatten, ops)) →
      ∃ (U : Finset (ℕ × K)) (S : Finset (ℕ × ℕ)), ∀ (s : Specs) (env : List (Finset (ℕ × K)) → ℕ → Env K),
      (∀ h j, (env h j).Lawful) → ∀ data' : List R, (∀ r ∈ data', r ∈ data) → ∀ before,
        prog.Covered lib s env pid data' U S before rounds := by
    intro n prog
    induction prog with
    | done => intro _ rounds _; exact ⟨∅, ∅, fun _ _ _ _ _ _ => trivial⟩
    | @round n cs next ih =>
      intro hs rounds hp
      obtain ⟨bs, rest, rfl, hlen⟩ : ∃ bs rest, rounds = bs :: rest ∧ cs.length = bs.length := by
        have h1 := (hp fun _ => ∅).1
        rcases rounds with _ | ⟨bs, rest⟩
        · simp [Program.path] at h1
        · simp only [Program.path, List.map_cons, List.cons.injEq] at h1
          exact ⟨bs, rest, rfl, h1.1⟩
      have hpath : ∀ t0 t, (Program.round cs next).path (fun i => Nat.casesOn i t0 t) = cs :: (next t0).path t :=
        fun _ _ => rfl
      have split : ∀ t0 t, ∃ rs ops rs' ops', planCalls fmt rs cs = .ok (bs, ops) ∧
          planCalls fmt rs' ((next t0).path t).flatten = .ok (rest.flatten, ops') := by
        intro t0 t
        obtain ⟨-, rs, ops, h⟩ := hp (fun i => Nat.casesOn i t0 t)
        rw [hpath, List.flatten_cons, List.flatten_cons] at h
        obtain ⟨bs1, bs2, ops1, ops2, rs', heq, h1, h2⟩ := planCalls_append _ h
        obtain ⟨rfl, rfl⟩ := List.append_inj heq (by rw [planCalls_length h1, hlen])
        exact ⟨rs, ops1, rs', ops2, h1, h2⟩
      obtain ⟨rs, ops, -, -, hplan, -⟩ := split ∅ fun _ => ∅
      obtain ⟨U0, S0, h0⟩ := observed_cover fmt lib pid data cs
        (fun c hc => hs (fun _ => ∅) cs (by simp [Program.path]) c hc) hplan
      have hrest := fun t0 => ih t0
        (fun t ds hd c hc => hs (fun i => Nat.casesOn i t0 t) ds (by rw [hpath]; exact List.mem_cons_of_mem _ hd) c hc)
        rest (fun t => by
          have h1 := (hp (fun i => Nat.casesOn i t0 t)).1
          rw [hpath, List.map_cons, List.map_cons, List.cons.injEq] at h1
          obtain ⟨-, -, rs', ops', -, h2⟩ := split t0 t
          exact ⟨h1.2, rs', ops', h2⟩)
      choose U1 S1 h1 using hrest
      refine ⟨U0 ∪ U0.powerset.biUnion U1, S0 ∪ U0.powerset.biUnion S1, fun s env henv data' hd before L hL => ⟨?_, ?_⟩⟩
      · intro j c hc
        obtain ⟨g1, g2, g3⟩ := h0 s (env before) (henv before) data' hd L hL j c hc
        exact ⟨Finset.mem_union_left _ g1, g2, fun n hn => ⟨Finset.mem_union_left _ (g3 n hn).1, (g3 n hn).2⟩⟩
      · intro t ht
        have hsub : t ∈ U0.powerset := by
          rw [Finset.mem_powerset]
          intro x hx
          obtain ⟨c, hc, he⟩ := ht x hx
          have := (h0 s (env before) (henv before) data' hd L hL x.1 c hc).1
          rwa [he] at this
        refine covered_mono ?_ ?_ _ _ _ (h1 t s env henv data' hd (t :: before))
        · exact (Finset.subset_biUnion_of_mem U1 hsub).trans Finset.subset_union_right
        · exact (Finset.subset_biUnion_of_mem S1 hsub).trans Finset.subset_union_right
  obtain ⟨U, S, h⟩ := key prog hs rounds fun t => ⟨(hp t).2, [], ops, (hp t).1⟩
  exact ⟨U, S, fun s env henv data' hd => h s env henv data' hd []⟩

/-! ### Example -/

/-- Rows (user, day, amount).  First the days are selected privately, then VARIANCE and PRIVACY_ID_COUNT are computed with the
selected days as public partitions. -/
noncomputable def exampleProgram : Program (ℕ × ℕ × ℚ) ℕ 2 :=
  .round [.select { maxPartitions := 3 } (fun r => r.2.1)] fun t =>
    .round [.aggregate exampleVariance (some (t.image Prod.snd).toList) (fun r => r.2.1) (fun r => r.2.2)] fun _ => .done

theorem exampleProgram_all (q : Call (ℕ × ℕ × ℚ) ℕ → Prop) (h1 : q (.select { maxPartitions := 3 } (fun r => r.2.1)))
    (h2 : ∀ ps, q (.aggregate exampleVariance (some ps) (fun r => r.2.1) (fun r => r.2.2))) : exampleProgram.All q := by
  intro t cs hcs c hc
  simp only [exampleProgram, Program.path, List.mem_cons, List.not_mem_nil, or_false] at hcs
  rcases hcs with rfl | rfl
  · rw [List.mem_singleton] at hc; subst hc; exact h1
  · rw [List.mem_singleton] at hc; subst hc; exact h2 _

/-- The hypotheses of C68 hold for this program with total budget (1, 1/1000), on every dataset and for every user. -/
example (fmt : ℚ → String) (data : List (ℕ × ℕ × ℚ)) (u : ℕ) :
    ∃ s0 rounds ops, Budget.init 1 (1 / 1000) none none = .ok s0 ∧ exampleProgram.Planned fmt rounds ops ∧
      let s := specOf (Budget.step (Budget.run s0 ops).1 .compute).1
      let env : List (Finset (ℕ × ℕ)) → ℕ → Env ℕ := fun _ _ => exampleEnv firstRng
      ∀ (U : Finset (ℕ × ℕ)) (S : Finset (ℕ × ℕ)), ∀ A, MeasurableSet A →
        programLaw exampleLibrary s env Prod.fst data U S exampleProgram [] rounds A
          ≤ ENNReal.ofReal (Real.exp 1) * programLaw exampleLibrary s env Prod.fst (removeId Prod.fst u data) U S
            exampleProgram [] rounds A + ENNReal.ofReal (1 / 1000) := by
  have hs : exampleProgram.All Call.Supported := exampleProgram_all _ ⟨by norm_num, by norm_num⟩ fun ps => by
    show SupportedAggregate _ _
    refine ⟨by simp [Params.BoundsValid, exampleVariance], by simp [exampleVariance], by simp [exampleVariance],
      by simp [exampleVariance], by simp [exampleVariance], by simp [exampleVariance],
      fun _ => ⟨⟨1, 3, rfl, rfl, by norm_num, Or.inl (by norm_num)⟩, rfl⟩, by simp [exampleVariance], by simp⟩
  obtain ⟨s0, h0⟩ : ∃ s0, Budget.init 1 (1 / 1000) none none = .ok s0 := by
    norm_num [Budget.init]
  obtain ⟨rounds, ops, hp, -, hc⟩ := C68_supported_program_runs fmt exampleProgram hs (fun t t' => by
    simp only [exampleProgram, Program.path]
    exact .cons (.cons rfl .nil) (.cons (.cons ⟨rfl, rfl⟩ .nil) .nil)) h0 (fun _ => by norm_num)
    (fun t => ⟨by simp, by simp⟩)
  refine ⟨s0, rounds, ops, h0, hp, ?_⟩
  have h := C68_adaptive_pipeline_is_differentially_private fmt exampleLibrary exampleLibrary_contract h0 exampleProgram hs
    (fun _ => by norm_num) hp hc (Measure.dirac ()) (fun _ _ _ => exampleEnv firstRng) (fun _ _ _ => exampleEnv_lawful _)
    Prod.fst data u (exampleProgram_all _ trivial fun ps =>
      ⟨⟨fun h => by simp [exampleVariance] at h, fun h => by simp [exampleVariance] at h⟩,
        fun h => by simp [exampleVariance] at h⟩)
  intro s env U S A hA
  have := ((h.2 U S).2 A hA).1
  simpa using this

end PDP.EndToEnd
