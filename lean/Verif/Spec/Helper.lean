/-!
# Specifications of the helpers
-/

namespace Verif.Spec

/-- Sum of the first `k` values. -/
def prefixSum {T : Type} [Add T] [Zero T] (v : Nat → T) : Nat → T
  | 0 => 0
  | k + 1 => prefixSum v k + v k

/-- Number of elements of the dimensions from `k` on. -/
def volume (sizes : Nat → Int) (n : Nat) : Nat → Int
  | 0 => 1
  | d + 1 => sizes (n - 1 - d) * volume sizes n d

/-- A multi-index that is in range for a shape of `n` dimensions. -/
def InShape (n : Nat) (sizes ix : Nat → Int) : Prop := ∀ i, i < n → 0 ≤ ix i ∧ ix i < sizes i

/-- Byte `k` (0 is the lowest) of the two's complement representation. -/
def byteOf (v : Int) (k : Nat) : Int := v / 256 ^ k % 256

/-- Number of one bits among the lowest `k` bits of the two's complement representation. -/
def oneBits (v : Int) (k : Nat) : Nat := ((List.range k).filter fun i => decide (v / 2 ^ i % 2 = 1)).length

/-- The factorial. -/
def fact : Nat → Nat
  | 0 => 1
  | n + 1 => (n + 1) * fact n

/-- Number of subsets with `k` elements of a set with `n` elements (Pascal's triangle). -/
def binom : Nat → Nat → Nat
  | _, 0 => 1
  | 0, _ + 1 => 0
  | n + 1, k + 1 => binom n k + binom n (k + 1)

end Verif.Spec
