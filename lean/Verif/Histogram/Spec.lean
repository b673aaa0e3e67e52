import Verif.Histogram.Model

/-! # Specification of histograms -/

namespace PDP.Histogram

variable {α : Type}

/-- The values of a list in the bin starting at `l`, where `bd` gives the ends of the bin of a value. -/
def inBin (bd : α → ℚ × ℚ) (l : ℚ) (xs : List α) : List α := xs.filter fun x => (bd x).1 = l

/-- `bins` is the histogram of the values `val x` for `x` in `xs` with bin ends `bd`: one bin per occupied
range, in increasing order, with the number, sum, largest and smallest of its values. -/
structure IsHistogram (val : α → ℚ) (bd : α → ℚ × ℚ) (xs : List α) (bins : List Bin) : Prop where
  sorted : bins.Pairwise fun a b => a.lower < b.lower
  occupied : ∀ l, (∃ b ∈ bins, b.lower = l) ↔ ∃ x ∈ xs, (bd x).1 = l
  upper : ∀ b ∈ bins, ∀ x ∈ inBin bd b.lower xs, b.upper = (bd x).2
  count : ∀ b ∈ bins, b.count = (inBin bd b.lower xs).length
  sum : ∀ b ∈ bins, b.sum = ((inBin bd b.lower xs).map val).sum
  max : ∀ b ∈ bins, (∃ x ∈ inBin bd b.lower xs, val x = b.max) ∧ ∀ x ∈ inBin bd b.lower xs, val x ≤ b.max
  min : ∀ b ∈ bins, (∃ x ∈ inBin bd b.lower xs, val x = b.min) ∧ ∀ x ∈ inBin bd b.lower xs, b.min ≤ val x

/-- Ends of the bin of an integer as rationals. -/
def intBounds (n : ℕ) : ℚ × ℚ := ((binBounds n).1, (binBounds n).2)

/-- Histogram of integers with logarithmic bins. -/
def IsCountHistogram (xs : List ℕ) (bins : List Bin) : Prop := IsHistogram (fun n : ℕ => (n : ℚ)) intBounds xs bins

end PDP.Histogram
