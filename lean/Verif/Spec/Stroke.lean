import Mathlib.Algebra.Order.Ring.Int
import Mathlib.Data.List.Count

/-!
# Specification: stroke widths

A ray is its width and the pixels it crosses.  Nothing here refers to the model of the code.
-/

namespace Verif.Spec

/-- `m` is the lower median of the values: fewer than half of them are smaller, at most half are larger. -/
def IsLowerMedian (m : Int) (l : List Int) : Prop :=
  m ∈ l ∧ 2 * (l.filter fun x => decide (x < m)).length < l.length ∧ 2 * (l.filter fun x => decide (m < x)).length ≤ l.length

/-- `m` is the smallest of `b` and the values of `f` at the rays through `p`. -/
def LeastAt (rays : List (Int × List (Nat × Nat))) (f : Int × List (Nat × Nat) → Int) (b : Int) (p : Nat × Nat) (m : Int) : Prop :=
  m ≤ b ∧ (∀ r ∈ rays, p ∈ r.2 → m ≤ f r) ∧ (m = b ∨ ∃ r ∈ rays, p ∈ r.2 ∧ m = f r)

/-- The stroke widths: first the smallest width of a ray through the pixel, `none` without a ray; then every ray lowers its pixels to its median. -/
def IsStroke (rays : List (Int × List (Nat × Nat))) (invalid : Int) (S : Nat × Nat → Int) : Prop :=
  ∃ (F : Nat × Nat → Int) (med : Int × List (Nat × Nat) → Int), (∀ p, LeastAt rays (fun r => r.1) invalid p (F p)) ∧
    (∀ r ∈ rays, IsLowerMedian (med r) (r.2.map F)) ∧ ∀ p, LeastAt rays med (F p) p (S p)

end Verif.Spec
