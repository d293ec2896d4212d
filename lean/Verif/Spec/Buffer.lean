import Mathlib.Algebra.Order.Ring.Int

/-!
# Specification: writing into a buffer, values in a buffer

Nothing here refers to the model of the code.
-/

namespace Verif.Spec

/-- `b'` is `b` with `data` written at `p`: as long as needed, the bytes of `data`, the old bytes elsewhere, 0 between. -/
def WrittenAt (b data b' : List Nat) (p : Nat) : Prop :=
  b'.length = max b.length (p + data.length) ∧
    ∀ i < b'.length, b'.getD i 0 = if p ≤ i ∧ i < p + data.length then data.getD (i - p) 0 else b.getD i 0

/-- A value to be stored: an unsigned or a signed number of some bytes, or a block of bytes. -/
inductive Item
  | u (k v : Nat)
  | i (k : Nat) (v : Int)
  | block (l : List Nat)
  deriving DecidableEq

/-- The value fits into its bytes. -/
def Item.fits : Item → Prop
  | .u k v => v < 256 ^ k
  | .i k v => 0 < k ∧ -(256 ^ k : Nat) ≤ 2 * v ∧ 2 * v < (256 ^ k : Nat)
  | .block _ => True

end Verif.Spec
