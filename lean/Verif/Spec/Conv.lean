import Mathlib.Algebra.BigOperators.Group.List.Basic
import Mathlib.Data.Rat.Defs

/-!
# Specification: convolution in one dimension
-/

namespace Verif.Spec

/-- The element of a signal at a place, zero outside. -/
def signalAt (src : List ℚ) (i : Int) : ℚ := if 0 ≤ i then src.getD i.toNat 0 else 0

/-- Boundary treatments: only complete overlaps, all overlaps, as many results as elements. -/
inductive ConvBoundary where
  | valid
  | full
  | same

/-- The place of the signal that meets the first element of the kernel for the first result. -/
def ConvBoundary.first (k : Nat) : ConvBoundary → Int
  | .valid => (k : Int) - 1
  | .full => 0
  | .same => (k / 2 : Nat)

/-- The number of results with step 1. -/
def ConvBoundary.count (n k : Nat) : ConvBoundary → Int
  | .valid => (n : Int) - k + 1
  | .full => (n : Int) + k - 1
  | .same => n

/-- `out` is the convolution: result `i` is the sum of the products of the elements of the kernel with those of the signal in reverse order, from the
place `first + i * stride` down; there are as many results as multiples of the stride below the count. -/
def IsConvolution (b : ConvBoundary) (stride : Nat) (src ker out : List ℚ) : Prop :=
  (∀ i : Nat, i < out.length ↔ (i : Int) * stride < b.count src.length ker.length) ∧
  ∀ i < out.length, out[i]? =
    some ((List.range ker.length).map fun j => ker.getD j 0 * signalAt src (b.first ker.length + i * stride - j)).sum

end Verif.Spec
