import Mathlib.Data.Rat.Defs
import Mathlib.Algebra.Order.Ring.Unbundled.Rat

/-!
# Rounding to 24 significant bits, to nearest, ties to even
-/

namespace Verif.Spec

/-- The quotient `n / d` rounded to the nearest integer, ties to even. -/
def roundDiv (n d : Nat) : Nat :=
  if d < 2 * (n % d) ∨ (2 * (n % d) = d ∧ n / d % 2 = 1) then n / d + 1 else n / d

/-- Binary32 without a limit on the exponent: `num / den = x / 2 ^ e` is between `2 ^ 23` and `2 ^ 24`. -/
def f32 (x : ℚ) : ℚ :=
  let n := x.num.natAbs
  let d := x.den
  let k : Int := (Nat.log2 n : Int) - (Nat.log2 d : Int)
  let e : Int := (if n * 2 ^ (-k).toNat < d * 2 ^ k.toNat then k - 1 else k) - 23
  let m := roundDiv (n * 2 ^ (-e).toNat) (d * 2 ^ e.toNat)
  (x.num.sign * (m * 2 ^ e.toNat : Nat) : Int) / ((2 ^ (-e).toNat : Nat) : ℚ)

end Verif.Spec
