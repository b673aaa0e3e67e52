import Verif.Histogram.Props
import Verif.Histogram.Quantiles
import Verif.Histogram.Ratio
import Verif.Histogram.Sum

/-! # Comparison of histograms (C85) -/

namespace PDP.Histogram

/-! ### Model -/

/-- `histograms.py:53-56` `FrequencyBin.__eq__`. -/
def Bin.pyEq (a b : Bin) : Bool :=
  a.lower = b.lower && a.count = b.count && a.sum = b.sum && a.max = b.max && a.min = a.min

/-- `histograms.py:63-80` `HistogramType`. -/
inductive HistogramType where
  | l0 | l1 | linf | linfSum | countPerPartition | privacyIdPerPartition | sumPerPartition
  deriving DecidableEq

/-- `histograms.py:83-98` `Histogram`; `lower` and `upper` are functions of the other fields. -/
structure Hist where
  name : HistogramType
  bins : List Bin

/-- `histograms.py:107-122` `is_integer`. -/
def Hist.isInteger (h : Hist) : Bool := ¬ (h.name = .linfSum ∨ h.name = .sumPerPartition)

/-- `histograms.py:100-105` `__post_init__`: `lower`. -/
def Hist.lower (h : Hist) : Option ℚ :=
  match h.bins with
  | [] => none
  | b :: _ => some (if h.isInteger then 1 else b.lower)

/-- `histograms.py:100-105` `__post_init__`: `upper`. -/
def Hist.upper (h : Hist) : Option ℚ :=
  match h.bins.getLast? with
  | none => none
  | some b => if h.isInteger then none else some b.upper

/-- `==` of lists of bins. -/
def binsEq : List Bin → List Bin → Bool
  | [], [] => true
  | a :: l, b :: m => a.pyEq b && binsEq l m
  | _, _ => false

/-- `Histogram.__eq__`, generated by `dataclass` (`histograms.py:83`): all fields are compared. -/
def Hist.pyEq (h h' : Hist) : Bool :=
  h.name = h'.name && binsEq h.bins h'.bins && h.lower = h'.lower && h.upper = h'.upper

/-! ### Specification -/

/-- The bins agree in all but their upper ends and the smallest of their values. -/
def Agree (a b : Bin) : Prop := a.lower = b.lower ∧ a.count = b.count ∧ a.sum = b.sum ∧ a.max = b.max

/-! ### Lemmas -/

theorem pyEq_iff (a b : Bin) : a.pyEq b = true ↔ Agree a b := by
  simp [Bin.pyEq, Agree, and_assoc]

theorem binsEq_iff (l m : List Bin) : binsEq l m = true ↔ List.Forall₂ Agree l m := by
  induction l generalizing m with
  | nil => cases m <;> simp [binsEq]
  | cons a l ih => cases m <;> simp [binsEq, pyEq_iff, ih]

theorem Agree.symm {a b : Bin} (h : Agree a b) : Agree b a := ⟨h.1.symm, h.2.1.symm, h.2.2.1.symm, h.2.2.2.symm⟩

theorem Agree.trans {a b c : Bin} (h : Agree a b) (h' : Agree b c) : Agree a c :=
  ⟨h.1.trans h'.1, h.2.1.trans h'.2.1, h.2.2.1.trans h'.2.2.1, h.2.2.2.trans h'.2.2.2⟩

theorem agree_getLast {l m : List Bin} (h : List.Forall₂ Agree l m) :
    (l.getLast? = none ∧ m.getLast? = none) ∨ ∃ a b, l.getLast? = some a ∧ m.getLast? = some b ∧ Agree a b := by
  induction h with
  | nil => exact .inl ⟨rfl, rfl⟩
  | @cons a b l m hab hlm ih =>
    refine .inr ?_
    rcases ih with ⟨h1, h2⟩ | ⟨a', b', h1, h2, h3⟩
    · rw [List.getLast?_eq_none_iff] at h1 h2
      subst h1 h2
      exact ⟨a, b, rfl, rfl, hab⟩
    · exact ⟨a', b', by rw [List.getLast?_cons, h1]; rfl, by rw [List.getLast?_cons, h2]; rfl, h3⟩

theorem agree_totalCount {l m : List Bin} (h : List.Forall₂ Agree l m) : totalCount l = totalCount m := by
  induction h with
  | nil => rfl
  | cons hab _ ih => simp only [totalCount, List.map_cons, List.sum_cons] at ih ⊢; rw [ih, hab.2.1]

theorem agree_totalSum {l m : List Bin} (h : List.Forall₂ Agree l m) : totalSum l = totalSum m := by
  induction h with
  | nil => rfl
  | cons hab _ ih => simp only [totalSum, List.map_cons, List.sum_cons] at ih ⊢; rw [ih, hab.2.2.1]

theorem agree_reverse {l m : List Bin} (h : List.Forall₂ Agree l m) : List.Forall₂ Agree l.reverse m.reverse :=
  List.rel_reverse h

theorem agree_quantilesLoop {l m : List Bin} (h : List.Forall₂ Agree l m) (total : ℚ) : ∀ smaller todo res,
    quantilesLoop total l smaller todo res = quantilesLoop total m smaller todo res := by
  induction h with
  | nil => intros; rfl
  | cons hab _ ih =>
    intro smaller todo res
    simp only [quantilesLoop, hab.1, hab.2.1, ih]

theorem agree_ratioLoop {l m : List Bin} (h : List.Forall₂ Agree l m) (total : ℚ) : ∀ dropped larger previous,
    ratioLoop total l dropped larger previous = ratioLoop total m dropped larger previous := by
  induction h with
  | nil => intros; rfl
  | cons hab _ ih =>
    intro dropped larger previous
    simp only [ratioLoop, hab.1, hab.2.1, hab.2.2.1, ih]

theorem hist_eq_iff (h h' : Hist) : h.pyEq h' = true ↔ h.name = h'.name ∧ List.Forall₂ Agree h.bins h'.bins ∧
    (h.isInteger = false → h.bins.getLast?.map Bin.upper = h'.bins.getLast?.map Bin.upper) := by
  obtain ⟨n, l⟩ := h
  obtain ⟨n', m⟩ := h'
  simp only [Hist.pyEq, Bool.and_eq_true, decide_eq_true_eq, binsEq_iff]
  constructor
  · rintro ⟨⟨⟨rfl, h2⟩, -⟩, h4⟩
    refine ⟨rfl, h2, fun hi => ?_⟩
    have hi' : Hist.isInteger ⟨n, m⟩ = false := hi
    unfold Hist.upper at h4
    rcases agree_getLast h2 with ⟨q1, q2⟩ | ⟨a, b, q1, q2, -⟩
    · simp only [q1, q2, Option.map_none]
    · simp only [q1, q2, hi, hi', Bool.false_eq_true, if_false, Option.some.injEq] at h4
      simp only [q1, q2, Option.map_some, h4]
  · rintro ⟨rfl, h2, h3⟩
    refine ⟨⟨⟨rfl, h2⟩, ?_⟩, ?_⟩
    · cases h2 with
      | nil => rfl
      | cons hab _ =>
        simp only [Hist.lower, Hist.isInteger, hab.1]
        rfl
    · unfold Hist.upper
      have e : Hist.isInteger ⟨n, m⟩ = Hist.isInteger ⟨n, l⟩ := rfl
      simp only [e] at h3 ⊢
      rcases agree_getLast h2 with ⟨q1, q2⟩ | ⟨a, b, q1, q2, -⟩
      · simp only [q1, q2]
      · simp only [q1, q2] at h3 ⊢
        cases hi : Hist.isInteger ⟨n, l⟩
        · simp only [hi, Option.map_some, Option.some.injEq, forall_true_left] at h3
          simp [h3]
        · rfl

/-! ### Properties -/

/-- **C85** (what `==` compares).  Two histograms compare equal if and only if they have the same type, the same number of bins, and
the bins agree in lower end, count, sum and largest value, and for sums also in the upper end of the last bin. -/
theorem C85_equal_iff (h h' : Hist) : h.pyEq h' = true ↔ h.name = h'.name ∧
    List.Forall₂ (fun a b => a.lower = b.lower ∧ a.count = b.count ∧ a.sum = b.sum ∧ a.max = b.max) h.bins h'.bins ∧
    (h.name = .linfSum ∨ h.name = .sumPerPartition → h.bins.getLast?.map Bin.upper = h'.bins.getLast?.map Bin.upper) := by
  rw [hist_eq_iff]
  have : h.isInteger = false ↔ h.name = .linfSum ∨ h.name = .sumPerPartition := by
    unfold Hist.isInteger
    by_cases hn : h.name = .linfSum ∨ h.name = .sumPerPartition <;> simp [hn]
  rw [this]
  rfl

/-- **C85** (equivalence).  `==` of histograms is reflexive, symmetric and transitive. -/
theorem C85_equality_is_an_equivalence : (∀ h : Hist, h.pyEq h = true) ∧
    (∀ h h' : Hist, h.pyEq h' = true → h'.pyEq h = true) ∧
    ∀ h h' h'' : Hist, h.pyEq h' = true → h'.pyEq h'' = true → h.pyEq h'' = true := by
  simp only [hist_eq_iff]
  refine ⟨fun h => ⟨trivial, List.forall₂_same.mpr fun _ _ => ⟨rfl, rfl, rfl, rfl⟩, fun _ => trivial⟩, ?_, ?_⟩
  · rintro h h' ⟨h1, h2, h3⟩
    refine ⟨h1.symm, (List.Forall₂.flip h2).imp fun _ _ => Agree.symm, fun hi => (h3 ?_).symm⟩
    unfold Hist.isInteger at hi ⊢
    rwa [h1]
  · rintro h h' h'' ⟨h1, h2, h3⟩ ⟨g1, g2, g3⟩
    refine ⟨h1.trans g1, ?_, fun hi => (h3 hi).trans (g3 ?_)⟩
    · have trans : ∀ l m n : List Bin, List.Forall₂ Agree l m → List.Forall₂ Agree m n → List.Forall₂ Agree l n := by
        intro l m n h
        induction h generalizing n with
        | nil => exact id
        | cons hab _ ih =>
          intro g
          cases g with
          | cons hbc hlm => exact .cons (hab.trans hbc) (ih _ hlm)
      exact trans _ _ _ h2 g2
    · unfold Hist.isInteger at hi ⊢
      rwa [← h1]

/-- **C85** (equal histograms give equal answers).  Histograms which compare equal have the same totals, the same quantiles and the
same ratios of dropped data. -/
theorem C85_equal_histograms_answer_equally (h h' : Hist) (he : h.pyEq h' = true) :
    totalCount h.bins = totalCount h'.bins ∧ totalSum h.bins = totalSum h'.bins ∧
    (∀ q, quantiles h.bins q = quantiles h'.bins q) ∧ ratioDropped h.bins = ratioDropped h'.bins := by
  obtain ⟨-, h2, -⟩ := (hist_eq_iff h h').mp he
  refine ⟨agree_totalCount h2, agree_totalSum h2, fun q => ?_, ?_⟩
  · unfold quantiles
    simp only [agree_totalCount h2, agree_quantilesLoop (agree_reverse h2)]
  · unfold ratioDropped
    rcases agree_getLast h2 with ⟨q1, q2⟩ | ⟨a, b, q1, q2, q3⟩
    · simp only [q1, q2]
    · simp only [q1, q2, agree_totalSum h2, agree_ratioLoop (agree_reverse h2), q3.1, q3.2.2.2]

/-- **C85** (histograms of counts).  If the histograms of two lists of numbers compare equal, also the upper ends of their bins agree:
all that can differ is the smallest value of a bin. -/
theorem C85_equal_count_histograms (O O' : Ops) (hO : O.Lawful) (hO' : O'.Lawful) (name : HistogramType) (xs ys : List ℕ)
    (he : Hist.pyEq ⟨name, frequencyHistogram O xs⟩ ⟨name, frequencyHistogram O' ys⟩ = true) :
    List.Forall₂ (fun a b => a = { b with min := a.min }) (frequencyHistogram O xs) (frequencyHistogram O' ys) := by
  obtain ⟨-, h2, -⟩ := (hist_eq_iff _ _).mp he
  have hx := frequencyHistogram_spec O hO xs
  have hy := frequencyHistogram_spec O' hO' ys
  have up : ∀ {zs : List ℕ} {bins : List Bin}, IsCountHistogram zs bins → ∀ b ∈ bins, ∃ z : ℕ, b.lower = (binBounds z).1 ∧
      b.upper = (binBounds z).2 := by
    intro zs bins h b hb
    obtain ⟨z, hz, hzl⟩ := (h.occupied b.lower).mp ⟨b, hb, rfl⟩
    exact ⟨z, hzl.symm, h.upper b hb z (List.mem_filter.mpr ⟨hz, by simpa using hzl⟩)⟩
  have key : ∀ l m : List Bin, List.Forall₂ Agree l m → (∀ b ∈ l, b ∈ frequencyHistogram O xs) →
      (∀ b ∈ m, b ∈ frequencyHistogram O' ys) → List.Forall₂ (fun a b => a = { b with min := a.min }) l m := by
    intro l m h
    induction h with
    | nil => intros; exact .nil
    | @cons a b l m hab _ ih =>
      intro h1 h2
      refine .cons ?_ (ih (fun c hc => h1 c (by simp [hc])) fun c hc => h2 c (by simp [hc]))
      obtain ⟨z, z1, z2⟩ := up hx a (h1 a (by simp))
      obtain ⟨w, w1, w2⟩ := up hy b (h2 b (by simp))
      have hzw : binBounds z = binBounds w := by
        have e : (binBounds z).1 = (binBounds w).1 := by
          have := z1.symm.trans (hab.1.trans w1)
          exact_mod_cast this
        have hz := C32_bins_partition_integers.1 z
        have hw := C32_bins_partition_integers.1 w
        rcases C32_bins_partition_integers.2.2.1 z w with h | h | h
        · exact h
        · omega
        · omega
      obtain ⟨a1, a2, a3, a4, a5, a6⟩ := a
      obtain ⟨b1, b2, b3, b4, b5, b6⟩ := b
      obtain ⟨e1, e2, e3, e4⟩ := hab
      simp only at e1 e2 e3 e4 z2 w2 ⊢
      rw [e1, e2, e3, e4, z2, w2, hzw]
  exact key _ _ h2 (fun _ h => h) fun _ h => h

/-- **C85** (small counts).  For numbers from 1 to 999 the histograms compare equal exactly if the numbers are the same, in any order. -/
theorem C85_equal_iff_same_small_numbers (O O' : Ops) (hO : O.Lawful) (hO' : O'.Lawful) (name : HistogramType) (xs ys : List ℕ)
    (hx : ∀ x ∈ xs, 1 ≤ x ∧ x < 1000) (hy : ∀ y ∈ ys, 1 ≤ y ∧ y < 1000) :
    Hist.pyEq ⟨name, frequencyHistogram O xs⟩ ⟨name, frequencyHistogram O' ys⟩ = true ↔ xs.Perm ys := by
  constructor
  · intro he
    obtain ⟨-, h2, -⟩ := (hist_eq_iff _ _).mp he
    have hx' := frequencyHistogram_spec O hO xs
    have hy' := frequencyHistogram_spec O' hO' ys
    have low : ∀ {zs : List ℕ}, (∀ z ∈ zs, 1 ≤ z ∧ z < 1000) → ∀ v : ℕ, inBin intBounds (v : ℚ) zs = zs.filter fun z => z = v := by
      intro zs hz v
      refine List.filter_congr fun z hm => ?_
      have := (C32_bin_width z (hz z hm).1).1 (hz z hm).2
      simp [intBounds, this]
    have cnt : ∀ {zs : List ℕ} {bins : List Bin}, (∀ z ∈ zs, 1 ≤ z ∧ z < 1000) → IsCountHistogram zs bins → ∀ v : ℕ,
        zs.count v = ((bins.find? fun b => b.lower = (v : ℚ)).map Bin.count).getD 0 := by
      intro zs bins hz h v
      have hlen : zs.count v = (inBin intBounds (v : ℚ) zs).length := by
        rw [low hz, List.count, List.countP_eq_length_filter]
        congr 1
      cases hf : bins.find? fun b => b.lower = (v : ℚ) with
      | some b =>
        have hb := List.mem_of_find?_eq_some hf
        have hl : b.lower = v := by simpa using List.find?_some hf
        have := h.count b hb
        rw [hl] at this
        simp [hlen, this]
      | none =>
        rw [hlen]
        simp only [Option.map_none, Option.getD_none, List.length_eq_zero_iff]
        rw [List.eq_nil_iff_forall_not_mem]
        intro z hm
        obtain ⟨h1, h2⟩ := List.mem_filter.mp hm
        obtain ⟨b, hb, hbl⟩ := (h.occupied (v : ℚ)).mpr ⟨z, h1, by simpa using h2⟩
        have := List.find?_eq_none.mp hf b hb
        simp [hbl] at this
    have find : ∀ (v : ℚ) (l m : List Bin), List.Forall₂ Agree l m →
        ((l.find? fun b => b.lower = v).map Bin.count).getD 0 = ((m.find? fun b => b.lower = v).map Bin.count).getD 0 := by
      intro v l m h
      induction h with
      | nil => rfl
      | @cons a b l m hab _ ih =>
        simp only [List.find?_cons, hab.1]
        split
        · simp [hab.2.1]
        · exact ih
    refine List.perm_iff_count.mpr fun v => ?_
    rw [cnt hx hx' v, cnt hy hy' v]
    exact find _ _ _ h2
  · intro hp
    rw [C33_independent_of_backend O O' hO hO' xs ys hp]
    exact C85_equality_is_an_equivalence.1 _

/-- **C85** (finding).  Histograms of different data with different smallest values can compare equal: `__eq__` compares the smallest
value of a bin with itself (`histograms.py:56`). -/
theorem C85_minimum_is_not_compared (O : Ops) (hO : O.Lawful) (name : HistogramType) :
    ∃ xs ys : List ℕ, Hist.pyEq ⟨name, frequencyHistogram O xs⟩ ⟨name, frequencyHistogram O ys⟩ = true ∧
      (frequencyHistogram O xs).map Bin.min ≠ (frequencyHistogram O ys).map Bin.min := by
  refine ⟨[1000, 1004, 1005], [1001, 1003, 1005], ?_⟩
  have e1 : frequencyHistogram O [1000, 1004, 1005] = [⟨1000, 1010, 3, 3009, 1005, 1000⟩] :=
    (C33_independent_of_backend O localOps hO localOps_lawful _ _ (List.Perm.refl _)).trans (by decide +kernel)
  have e2 : frequencyHistogram O [1001, 1003, 1005] = [⟨1000, 1010, 3, 3009, 1005, 1001⟩] :=
    (C33_independent_of_backend O localOps hO localOps_lawful _ _ (List.Perm.refl _)).trans (by decide +kernel)
  rw [e1, e2]
  constructor
  · simp [hist_eq_iff, Agree]
  · simp

/-! ### Examples -/

/-- Two histograms of sums that differ only in the inner upper end compare equal; a different last upper end is seen. -/
example : Hist.pyEq ⟨.linfSum, [⟨0, 1, 2, 1, 1, 0⟩, ⟨1, 2, 1, 2, 2, 2⟩]⟩ ⟨.linfSum, [⟨0, 7, 2, 1, 1, 0⟩, ⟨1, 2, 1, 2, 2, 2⟩]⟩ = true ∧
    Hist.pyEq ⟨.linfSum, [⟨0, 1, 2, 1, 1, 0⟩, ⟨1, 2, 1, 2, 2, 2⟩]⟩ ⟨.linfSum, [⟨0, 1, 2, 1, 1, 0⟩, ⟨1, 3, 1, 2, 2, 2⟩]⟩ = false := by
  decide +kernel

/-- The numbers 2, 1, 2 and 1, 2, 2 have equal histograms, 1, 1, 2 another one. -/
example : Hist.pyEq ⟨.l0, frequencyHistogram localOps [2, 1, 2]⟩ ⟨.l0, frequencyHistogram localOps [1, 2, 2]⟩ = true ∧
    Hist.pyEq ⟨.l0, frequencyHistogram localOps [2, 1, 2]⟩ ⟨.l0, frequencyHistogram localOps [1, 1, 2]⟩ = false := by
  decide +kernel

end PDP.Histogram
