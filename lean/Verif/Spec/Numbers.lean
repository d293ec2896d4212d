import Mathlib.Algebra.Order.Ring.Int

/-!
# Numbers with a digit more, texts in lexicographic order, digits of numbers
-/

namespace Verif.Spec

/-- The number with the digit 5 inserted before its last `k` digits. -/
def insertFive (n k : Nat) : Nat := n / 10 ^ k * 10 ^ (k + 1) + 5 * 10 ^ k + n % 10 ^ k

/-- The number has `k` digits at least (0 has one digit). -/
def HasDigits (n k : Nat) : Prop := k ≤ 1 ∨ 10 ^ (k - 1) ≤ n

/-- Lexicographic order of texts: not after. -/
def LexLe : List Nat → List Nat → Prop
  | [], _ => True
  | _ :: _, [] => False
  | x :: l, y :: m => x < y ∨ x = y ∧ LexLe l m

/-- How often the digit 1 occurs among the last `k` digits of `n`. -/
def onesOf (k n : Nat) : Nat := ((List.range k).filter fun j => n / 10 ^ j % 10 == 1).length

/-- How often the digit 1 occurs in the numbers up to `n`, each of fewer than 11 digits. -/
def onesTo (n : Nat) : Nat := ((List.range (n + 1)).map (onesOf 10)).sum

end Verif.Spec
