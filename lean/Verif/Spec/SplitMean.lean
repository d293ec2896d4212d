import Mathlib.Algebra.Order.Ring.Rat
import Mathlib.Algebra.BigOperators.Group.List.Basic

/-!
# Specification: splitting numbers into two parts
-/

namespace Verif.Spec

/-- The numbers are split into the parts `a` and `b`, which are not empty. -/
def IsSplit (data a b : List Int) : Prop := a ≠ [] ∧ b ≠ [] ∧ (b ++ a).Perm data

/-- The difference of the means of the parts. -/
def meanDifference (a b : List Int) : ℚ := (a.sum : ℚ) / a.length - (b.sum : ℚ) / b.length

end Verif.Spec
