import Mathlib.Algebra.Order.Ring.Rat

/-!
# Specification: histograms
-/

namespace Verif.Spec

/-- Interval `j` of `n` equal intervals between `lo` and `hi`. -/
def equalInterval (lo hi : ℚ) (n j : Nat) : ℚ × ℚ := (lo + j * ((hi - lo) / n), lo + (j + 1) * ((hi - lo) / n))

/-- A half-open interval contains a number. -/
def inInterval (r : ℚ × ℚ) (x : ℚ) : Bool := decide (r.1 ≤ x ∧ x < r.2)

end Verif.Spec
