import Mathlib.Analysis.SpecialFunctions.Exp

/-!
# Specification: Gaussian kernels
-/

namespace Verif.Spec

/-- `k` is the Gaussian kernel with the given number of elements: proportional to the Gaussian function of the distance to the middle, with sum 1. -/
def IsGaussian (size : Nat) (sigma : ℝ) (k : List ℝ) : Prop :=
  k.length = size ∧ k.sum = 1 ∧ ∃ c > 0, ∀ i : Nat, i < size → k[i]? = some (c * Real.exp (-(((i : ℝ) - (size / 2 : Nat)) ^ 2 / (2 * sigma ^ 2))))

end Verif.Spec
