import Mathlib.Data.Rat.Defs
import Mathlib.Algebra.Order.Ring.Rat

/-!
# Specification: distances of ranges of columns, angles
-/

namespace Verif.Spec

/-- `d` is the smallest distance of a column from `l1` to `r1` and one from `l2` to `r2`. -/
def SmallestDistance (l1 r1 l2 r2 d : Int) : Prop :=
  (∃ x y, l1 ≤ x ∧ x ≤ r1 ∧ l2 ≤ y ∧ y ≤ r2 ∧ ((x - y).natAbs : Int) = d) ∧
  ∀ x y, l1 ≤ x → x ≤ r1 → l2 ≤ y → y ≤ r2 → d ≤ ((x - y).natAbs : Int)

/-- `b` is the angle `a` in degrees, brought into one turn. -/
def InOneTurn (a b : ℚ) : Prop := 0 ≤ b ∧ b < 360 ∧ ∃ k : Int, a = b + 360 * k

end Verif.Spec
