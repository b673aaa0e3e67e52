import Verif.Analysis.PerPartition
import Verif.Analysis.Poisson
import Mathlib.Algebra.BigOperators.Ring.Finset
import Mathlib.Algebra.Order.BigOperators.Ring.Finset
import Mathlib.Data.Fintype.BigOperators

/-!
# Independent uniform choices of partitions

Finitely many executions `ω` with probabilities `w ω`.  In every execution each user keeps some of its partitions.
-/

set_option linter.unusedVariables false
set_option linter.unusedSectionVars false

namespace PDP.Analysis

variable {Ω P K : Type} [Fintype Ω] [DecidableEq P] [DecidableEq K]

/-! ### Specification -/

/-- Weights of a probability distribution on finitely many executions. -/
structure IsProbability (w : Ω → ℝ) : Prop where
  nonneg : ∀ ω, 0 ≤ w ω
  total : ∑ ω, w ω = 1

/-- Expectation. -/
noncomputable def mean (w : Ω → ℝ) (X : Ω → ℝ) : ℝ := ∑ ω, w ω * X ω

/-- Variance. -/
noncomputable def variance (w : Ω → ℝ) (X : Ω → ℝ) : ℝ := mean w fun ω => (X ω - mean w X) ^ 2

open Classical in
/-- Probability of an event. -/
noncomputable def prob (w : Ω → ℝ) (E : Ω → Prop) : ℝ := ∑ ω, if E ω then w ω else 0

/-- Every user, independently of the others, keeps a uniformly random set of `min l0 n` of its `n` partitions: each way to choose
such sets for all users has the same probability, the product over the users of one by the number of sets. -/
def UniformChoices (w : Ω → ℝ) (users : Finset P) (parts : P → Finset K) (l0 : ℕ) (kept : Ω → P → Finset K) : Prop :=
  ∀ S : P → Finset K, (∀ u ∈ users, S u ⊆ parts u ∧ (S u).card = min l0 (parts u).card) →
    prob w (fun ω => ∀ u ∈ users, kept ω u = S u)
      = ∏ u ∈ users, (1 / ((parts u).card.choose (min l0 (parts u).card) : ℝ))

/-! ### Lemmas -/

theorem prob_eq (w : Ω → ℝ) (E : Ω → Prop) [DecidablePred E] : prob w E = ∑ ω, if E ω then w ω else 0 := by
  unfold prob
  exact Finset.sum_congr rfl fun ω _ => by split_ifs <;> rfl

theorem card_with {A : Finset K} {k : K} (hk : k ∈ A) (m : ℕ) :
    ((A.powersetCard (m + 1)).filter fun s => k ∈ s).card = (A.card - 1).choose m := by
  have hsplit := Finset.card_filter_add_card_filter_not (s := A.powersetCard (m + 1)) (fun s => k ∈ s)
  have hno : (A.powersetCard (m + 1)).filter (fun s => ¬ k ∈ s) = (A.erase k).powersetCard (m + 1) := by
    ext s
    simp only [Finset.mem_filter, Finset.mem_powersetCard, Finset.subset_erase]
    tauto
  obtain ⟨n, hn⟩ : ∃ n, A.card = n + 1 := ⟨A.card - 1, by have := Finset.card_pos.mpr ⟨k, hk⟩; omega⟩
  rw [hno, Finset.card_powersetCard, Finset.card_powersetCard, Finset.card_erase_of_mem hk, hn,
    Nat.add_sub_cancel, Nat.choose_succ_succ'] at hsplit
  rw [hn, Nat.add_sub_cancel]
  omega

/-- The share of the sets that contain the partition. -/
theorem share_with {A : Finset K} {k : K} (hk : k ∈ A) (l0 : ℕ) :
    (((A.powersetCard (min l0 A.card)).filter fun s => k ∈ s).card : ℚ) / (A.card.choose (min l0 A.card) : ℕ)
      = probKeep l0 A.card := by
  have h := share_kept l0 A.card
  rw [card_keptSets] at h
  rw [← h]
  congr 2
  obtain ⟨n, hn⟩ : ∃ n, A.card = n + 1 := ⟨A.card - 1, by have := Finset.card_pos.mpr ⟨k, hk⟩; omega⟩
  rcases hm : min l0 A.card with _ | m
  · have e1 : (A.powersetCard 0).filter (fun s => k ∈ s) = ∅ := by
      ext s; simp; rintro rfl; simp
    have e2 : (keptSets l0 A.card).filter (fun s => 0 ∈ s) = ∅ := by
      ext s; simp [keptSets, hm]; rintro rfl; simp
    rw [e1, e2]
    rfl
  · rw [card_with hk]
    unfold keptSets
    rw [hm, hn, Nat.add_sub_cancel, card_keptSets_with]

theorem average_with {A : Finset K} {k : K} (hk : k ∈ A) (l0 : ℕ) (g : Bool → ℝ) :
    (∑ s ∈ A.powersetCard (min l0 A.card), g (decide (k ∈ s))) * (1 / (A.card.choose (min l0 A.card) : ℝ))
      = probKeep l0 A.card * g true + (1 - probKeep l0 A.card) * g false := by
  have h := share_with hk l0
  have hc : (0 : ℝ) < (A.card.choose (min l0 A.card) : ℕ) := by exact_mod_cast Nat.choose_pos (Nat.min_le_right _ _)
  have h' : (((A.powersetCard (min l0 A.card)).filter fun s => k ∈ s).card : ℝ)
      = (probKeep l0 A.card : ℝ) * (A.card.choose (min l0 A.card) : ℕ) := by
    have := congrArg (fun q : ℚ => (q : ℝ)) h
    push_cast at this
    rwa [div_eq_iff hc.ne'] at this
  have hsplit := Finset.card_filter_add_card_filter_not (s := A.powersetCard (min l0 A.card)) (fun s => k ∈ s)
  rw [Finset.card_powersetCard] at hsplit
  have hno : (((A.powersetCard (min l0 A.card)).filter fun s => ¬ k ∈ s).card : ℝ)
      = (A.card.choose (min l0 A.card) : ℕ) - (probKeep l0 A.card : ℝ) * (A.card.choose (min l0 A.card) : ℕ) := by
    rw [← h', eq_sub_iff_add_eq, ← hsplit]; push_cast; ring
  have hg : ∀ s : Finset K, g (decide (k ∈ s)) = if k ∈ s then g true else g false := by
    intro s; by_cases hs : k ∈ s <;> simp [hs]
  simp only [hg]
  rw [Finset.sum_ite, Finset.sum_const, Finset.sum_const, nsmul_eq_mul, nsmul_eq_mul, hno, h']
  field_simp

section

variable {w : Ω → ℝ} {users : Finset P} {parts : P → Finset K} {l0 : ℕ} {kept : Ω → P → Finset K}

/-- Independence: the expectation of a product over the users is the product of the averages. -/
theorem mean_prod (hu : UniformChoices w users parts l0 kept)
    (hk : ∀ ω, ∀ u ∈ users, kept ω u ⊆ parts u ∧ (kept ω u).card = min l0 (parts u).card) (f : P → Finset K → ℝ) :
    mean w (fun ω => ∏ u ∈ users, f u (kept ω u))
      = ∏ u ∈ users, ((∑ s ∈ (parts u).powersetCard (min l0 (parts u).card), f u s)
          * (1 / ((parts u).card.choose (min l0 (parts u).card) : ℝ))) := by
  classical
  let t : P → Finset (Finset K) := fun u => (parts u).powersetCard (min l0 (parts u).card)
  let ext : ((u : P) → u ∈ users → Finset K) → P → Finset K := fun p u => if h : u ∈ users then p u h else ∅
  have hext : ∀ p u (h : u ∈ users), ext p u = p u h := fun p u h => dif_pos h
  have h1 : ∀ ω, (∏ u ∈ users, f u (kept ω u))
      = ∑ p ∈ users.pi t, if ∀ u ∈ users, kept ω u = ext p u then ∏ u ∈ users, f u (ext p u) else 0 := by
    intro ω
    rw [Finset.sum_eq_single (fun u _ => kept ω u)]
    · rw [if_pos (fun u h => (hext (fun u _ => kept ω u) u h).symm)]
      exact Finset.prod_congr rfl fun u h => congrArg (f u) (hext (fun u _ => kept ω u) u h).symm
    · intro p hp hne
      rw [if_neg]
      intro h
      apply hne
      funext u hu
      rw [h u hu, hext _ _ hu]
    · intro h
      exfalso
      apply h
      rw [Finset.mem_pi]
      intro u hu
      exact Finset.mem_powersetCard.mpr (hk ω u hu)
  unfold mean
  simp only [h1, Finset.mul_sum]
  rw [Finset.sum_comm]
  have h2 : ∀ p ∈ users.pi t, (∑ ω, w ω * if ∀ u ∈ users, kept ω u = ext p u then ∏ u ∈ users, f u (ext p u) else 0)
      = ∏ u ∈ users.attach, (f u.1 (p u.1 u.2) * (1 / ((parts u.1).card.choose (min l0 (parts u.1).card) : ℝ))) := by
    intro p hp
    have hpr := hu (ext p) (by
      intro u h
      rw [hext _ _ h]
      exact Finset.mem_powersetCard.mp (Finset.mem_pi.mp hp u h))
    rw [prob_eq] at hpr
    have e1 : (∑ ω, w ω * if ∀ u ∈ users, kept ω u = ext p u then ∏ u ∈ users, f u (ext p u) else 0)
        = (∑ ω, if ∀ u ∈ users, kept ω u = ext p u then w ω else 0) * ∏ u ∈ users, f u (ext p u) := by
      rw [Finset.sum_mul]
      exact Finset.sum_congr rfl fun ω _ => by split_ifs <;> simp
    rw [e1, hpr, mul_comm, ← Finset.prod_mul_distrib, ← Finset.prod_attach]
    exact Finset.prod_congr rfl fun u _ => by rw [hext _ _ u.2]
  rw [Finset.sum_congr rfl h2]
  simp only [Finset.sum_mul]
  rw [Finset.prod_sum]

/-- The events that the users `U` of partition `k` keep it are independent, with the probabilities of `probKeep`. -/
theorem mean_pattern (hu : UniformChoices w users parts l0 kept)
    (hk : ∀ ω, ∀ u ∈ users, kept ω u ⊆ parts u ∧ (kept ω u).card = min l0 (parts u).card) {k : K} {U : Finset P}
    (hU : U ⊆ users) (hkU : ∀ u ∈ U, k ∈ parts u) (g : P → Bool → ℝ) :
    mean w (fun ω => ∏ u ∈ U, g u (decide (k ∈ kept ω u)))
      = ∏ u ∈ U, (probKeep l0 (parts u).card * g u true + (1 - probKeep l0 (parts u).card) * g u false) := by
  have h := mean_prod hu hk fun u s => if u ∈ U then g u (decide (k ∈ s)) else 1
  have e1 : ∀ F : P → ℝ, (∏ u ∈ users, if u ∈ U then F u else 1) = ∏ u ∈ U, F u := by
    intro F
    rw [Finset.prod_ite_mem, Finset.inter_eq_right.mpr hU]
  simp only [e1] at h
  rw [h, ← e1]
  refine Finset.prod_congr rfl fun u hu' => ?_
  by_cases hm : u ∈ U
  · simp only [hm, if_true]
    exact average_with (hkU u hm) l0 (g u)
  · simp only [hm, if_false, Finset.sum_const, Finset.card_powersetCard, nsmul_eq_mul, mul_one]
    have hc : (0 : ℝ) < ((parts u).card.choose (min l0 (parts u).card) : ℕ) := by
      exact_mod_cast Nat.choose_pos (Nat.min_le_right _ _)
    field_simp

theorem mean_add (X Y : Ω → ℝ) : mean w (fun ω => X ω + Y ω) = mean w X + mean w Y := by
  simp [mean, mul_add, Finset.sum_add_distrib]

theorem mean_mul_left (c : ℝ) (X : Ω → ℝ) : mean w (fun ω => c * X ω) = c * mean w X := by
  simp only [mean, Finset.mul_sum]
  exact Finset.sum_congr rfl fun ω _ => by ring

theorem mean_sum {ι : Type} (s : Finset ι) (X : ι → Ω → ℝ) :
    mean w (fun ω => ∑ i ∈ s, X i ω) = ∑ i ∈ s, mean w (X i) := by
  simp only [mean, Finset.mul_sum]
  rw [Finset.sum_comm]

/-- Expectation and variance of a sum over the users that keep partition `k`. -/
theorem kept_moments (hu : UniformChoices w users parts l0 kept)
    (hk : ∀ ω, ∀ u ∈ users, kept ω u ⊆ parts u ∧ (kept ω u).card = min l0 (parts u).card) {k : K} {U : Finset P}
    (hU : U ⊆ users) (hkU : ∀ u ∈ U, k ∈ parts u) (c : P → ℝ) :
    mean w (fun ω => ∑ u ∈ U, if k ∈ kept ω u then c u else 0) = ∑ u ∈ U, c u * probKeep l0 (parts u).card ∧
    variance w (fun ω => ∑ u ∈ U, if k ∈ kept ω u then c u else 0)
      = ∑ u ∈ U, c u ^ 2 * probKeep l0 (parts u).card * (1 - probKeep l0 (parts u).card) := by
  have h1 : ∀ u ∈ U, ∀ g : Bool → ℝ, mean w (fun ω => g (decide (k ∈ kept ω u)))
      = probKeep l0 (parts u).card * g true + (1 - probKeep l0 (parts u).card) * g false := by
    intro u hm g
    have := mean_pattern hu hk (U := {u}) (by simpa using hU hm) (by simpa using hkU u hm) (fun _ => g)
    simpa using this
  have hmean : mean w (fun ω => ∑ u ∈ U, if k ∈ kept ω u then c u else 0) = ∑ u ∈ U, c u * probKeep l0 (parts u).card := by
    rw [mean_sum]
    refine Finset.sum_congr rfl fun u hm => ?_
    have := h1 u hm fun b => if b then c u else 0
    simp only [decide_eq_true_eq, if_true, Bool.false_eq_true, if_false, mul_zero, add_zero] at this
    rw [this, mul_comm]
  refine ⟨hmean, ?_⟩
  unfold variance
  rw [hmean]
  let d : P → Bool → ℝ := fun u b => (if b then c u else 0) - c u * probKeep l0 (parts u).card
  have h2 : ∀ ω, ((∑ u ∈ U, if k ∈ kept ω u then c u else 0) - ∑ u ∈ U, c u * (probKeep l0 (parts u).card : ℝ)) ^ 2
      = ∑ u ∈ U, ∑ v ∈ U, d u (decide (k ∈ kept ω u)) * d v (decide (k ∈ kept ω v)) := by
    intro ω
    rw [← Finset.sum_sub_distrib, sq, Finset.sum_mul_sum]
    simp [d]
  simp only [h2]
  rw [mean_sum]
  refine Finset.sum_congr rfl fun u hm => ?_
  rw [mean_sum, Finset.sum_eq_single u]
  · rw [h1 u hm fun b => d u b * d u b]
    simp only [d, if_true, Bool.false_eq_true, if_false]
    ring
  · intro v hv hne
    have := mean_pattern hu hk (U := {u, v}) (by
        intro x hx
        rcases Finset.mem_insert.mp hx with rfl | hx
        · exact hU hm
        · rw [Finset.mem_singleton.mp hx]; exact hU hv) (by
        intro x hx
        rcases Finset.mem_insert.mp hx with rfl | hx
        · exact hkU _ hm
        · rw [Finset.mem_singleton.mp hx]; exact hkU _ hv) d
    simp only [Finset.prod_pair hne.symm] at this
    rw [this]
    simp only [d, if_true, Bool.false_eq_true, if_false]
    ring
  · intro h; exact absurd hm h

theorem mem_outcomes : ∀ (n : ℕ) (bs : List Bool), bs ∈ outcomes n ↔ bs.length = n
  | 0, bs => by simp [outcomes]
  | n + 1, bs => by
    rw [outcomes, List.mem_append, List.mem_map, List.mem_map]
    constructor
    · rintro (⟨b, h, rfl⟩ | ⟨b, h, rfl⟩) <;> simp [(mem_outcomes n b).mp h]
    · intro h
      cases bs with
      | nil => simp at h
      | cons b bs =>
        have := (mem_outcomes n bs).mpr (by simpa using h)
        cases b
        · exact Or.inl ⟨bs, this, rfl⟩
        · exact Or.inr ⟨bs, this, rfl⟩

theorem outcomes_nodup : ∀ n : ℕ, (outcomes n).Nodup
  | 0 => by simp [outcomes]
  | n + 1 => by
    rw [outcomes, List.nodup_append]
    refine ⟨(outcomes_nodup n).map fun _ _ h => by simpa using h, (outcomes_nodup n).map fun _ _ h => by simpa using h, ?_⟩
    intro a ha b hb hab
    obtain ⟨x, -, rfl⟩ := List.mem_map.mp ha
    obtain ⟨y, -, rfl⟩ := List.mem_map.mp hb
    simp at hab

/-- The joint distribution of the decisions of the users of partition `k`. -/
theorem prob_pattern (hu : UniformChoices w users parts l0 kept)
    (hk : ∀ ω, ∀ u ∈ users, kept ω u ⊆ parts u ∧ (kept ω u).card = min l0 (parts u).card) {k : K} {us : List P}
    (hnd : us.Nodup) (hU : ∀ u ∈ us, u ∈ users) (hkU : ∀ u ∈ us, k ∈ parts u) (bs : List Bool) (hl : bs.length = us.length) :
    prob w (fun ω => us.map (fun u => decide (k ∈ kept ω u)) = bs)
      = probability (us.map fun u => probKeep l0 (parts u).card) bs := by
  classical
  -- the wanted outcome of a user
  obtain ⟨σ, hσ⟩ : ∃ σ : P → Bool, us.map σ = bs := by
    clear hU hkU
    induction us generalizing bs with
    | nil => exact ⟨fun _ => true, by simp at hl; simp [hl]⟩
    | cons u us ih =>
      cases bs with
      | nil => simp at hl
      | cons b bs =>
        obtain ⟨σ, hσ⟩ := ih (List.nodup_cons.mp hnd).2 bs (by simpa using hl)
        refine ⟨fun v => if v = u then b else σ v, ?_⟩
        rw [List.map_cons, if_pos rfl, ← hσ]
        congr 1
        apply List.map_congr_left
        intro v hv
        rw [if_neg]
        rintro rfl
        exact (List.nodup_cons.mp hnd).1 hv
  have h := mean_pattern hu hk (U := us.toFinset) (k := k) (fun u h => hU u (List.mem_toFinset.mp h))
    (fun u h => hkU u (List.mem_toFinset.mp h)) fun u b => if b = σ u then 1 else 0
  have e1 : ∀ ω, (∏ u ∈ us.toFinset, if decide (k ∈ kept ω u) = σ u then (1 : ℝ) else 0)
      = if us.map (fun u => decide (k ∈ kept ω u)) = bs then 1 else 0 := by
    intro ω
    rw [Finset.prod_boole, ← hσ]
    congr 1
    rw [List.map_inj_left]
    simp
  unfold mean at h
  simp only [e1] at h
  rw [prob_eq]
  rw [show (∑ ω, if us.map (fun u => decide (k ∈ kept ω u)) = bs then w ω else 0)
      = ∑ ω, w ω * if us.map (fun u => decide (k ∈ kept ω u)) = bs then 1 else 0 from
      Finset.sum_congr rfl fun ω _ => by split_ifs <;> simp, h, ← hσ, ← List.prod_toFinset _ hnd |>.symm]
  unfold probability
  clear h e1 hσ hl hU hkU hnd
  induction us with
  | nil => simp
  | cons u us ih =>
    rw [List.map_cons, List.prod_cons, ih, List.map_cons, List.map_cons, List.zipWith_cons_cons, List.prod_cons]
    cases hb : σ u <;> push_cast <;> simp

/-- The number of users that keep partition `k` has the Poisson binomial distribution. -/
theorem prob_count (hu : UniformChoices w users parts l0 kept)
    (hk : ∀ ω, ∀ u ∈ users, kept ω u ⊆ parts u ∧ (kept ω u).card = min l0 (parts u).card) {k : K} {us : List P}
    (hnd : us.Nodup) (hU : ∀ u ∈ us, u ∈ users) (hkU : ∀ u ∈ us, k ∈ parts u) (n : ℕ) :
    prob w (fun ω => us.countP (fun u => decide (k ∈ kept ω u)) = n)
      = successes (us.map fun u => probKeep l0 (parts u).card) n := by
  classical
  have e1 : ∀ ω, (us.countP (fun u => decide (k ∈ kept ω u)) = n)
      ↔ us.map (fun u => decide (k ∈ kept ω u)) ∈ (outcomes us.length).filter fun bs => bs.count true = n := by
    intro ω
    rw [List.mem_filter, mem_outcomes]
    simp only [List.length_map, true_and, decide_eq_true_eq, List.count, List.countP_map, Function.comp_def, beq_true]
  have key : ∀ l : List (List Bool), l.Nodup → (∀ bs ∈ l, bs.length = us.length) →
      prob w (fun ω => us.map (fun u => decide (k ∈ kept ω u)) ∈ l)
        = ((l.map (probability (us.map fun u => probKeep l0 (parts u).card))).sum : ℚ) := by
    intro l
    induction l with
    | nil => intro _ _; simp [prob]
    | cons bs l ih =>
      intro hn hl
      rw [List.map_cons, List.sum_cons, Rat.cast_add, ← ih (List.nodup_cons.mp hn).2 fun b hb => hl b (by simp [hb]),
        ← prob_pattern hu hk hnd hU hkU bs (hl bs (by simp))]
      rw [prob_eq, prob_eq, prob_eq, ← Finset.sum_add_distrib]
      refine Finset.sum_congr rfl fun ω _ => ?_
      by_cases h1 : us.map (fun u => decide (k ∈ kept ω u)) = bs
      · have : us.map (fun u => decide (k ∈ kept ω u)) ∉ l := by rw [h1]; exact (List.nodup_cons.mp hn).1
        simp [h1, (List.nodup_cons.mp hn).1]
      · simp only [List.mem_cons, h1, false_or, if_false, zero_add]
  have := key ((outcomes us.length).filter fun bs => bs.count true = n) ((outcomes_nodup _).filter _)
    (fun bs h => (mem_outcomes _ _).mp (List.mem_filter.mp h).1)
  rw [show (fun ω => us.countP (fun u => decide (k ∈ kept ω u)) = n) = fun ω =>
    us.map (fun u => decide (k ∈ kept ω u)) ∈ (outcomes us.length).filter fun bs => bs.count true = n from
    funext fun ω => propext (e1 ω), this]
  unfold successes
  rw [List.length_map]

end

end PDP.Analysis
