import Mathlib.Algebra.BigOperators.Group.List.Basic
import Mathlib.Analysis.SpecialFunctions.Exp

/-!
# Specification: softmax, quadratic loss, reduction of a line
-/

namespace Verif.Spec

/-- The exponentials in relation to their sum. -/
def IsSoftmax (row out : List ℝ) : Prop :=
  out.length = row.length ∧ ∀ (i : Nat) (v : ℝ), row[i]? = some v → out[i]? = some (Real.exp v / (row.map Real.exp).sum)

/-- The half squared difference, nothing where the expected value is not a number. -/
def halfSquare (x : ℚ) : Option ℚ → ℚ
  | none => 0
  | some v => (x - v) * (x - v) / 2

/-- The loss of each of `ch` channels of `n` elements that lie one after the other: the sum over all elements. -/
def IsQuadraticLoss (n ch : Nat) (src : Nat → ℚ) (mat : Nat → Option ℚ) (out : Nat → ℚ) : Prop :=
  ∀ c < ch, out c = ((List.range n).map fun e => halfSquare (src (e * ch + c)) (mat (e * ch + c))).sum

/-- `m` is the mean. -/
def IsMean (l : List ℚ) (m : ℚ) : Prop := m * l.length = l.sum

/-- `m` is the best element. -/
def IsExtreme (before : ℚ → ℚ → Prop) (l : List ℚ) (m : ℚ) : Prop := m ∈ l ∧ ∀ x ∈ l, ¬ before x m

end Verif.Spec
