/-!
# Specifications of the dynamic programming helpers
-/

namespace Verif.Spec

/-- Sum of the run of `len` values from `b` on. -/
def runSum (v : Nat → Int) (b : Nat) : Nat → Int
  | 0 => 0
  | len + 1 => runSum v b len + v (b + len)

/-- A run of `len` elements that both vectors have, at `i` in the first and at `j` in the second. -/
def CommonRun {T : Type} (na nb : Nat) (a b : Nat → T) (i j len : Nat) : Prop :=
  i + len ≤ na ∧ j + len ≤ nb ∧ ∀ t, t < len → a (i + t) = b (j + t)

/-- Total over the chosen ones of the first `n` items. -/
def chosen (n : Nat) (x : Nat → Int) (s : Nat → Bool) : Int :=
  match n with
  | 0 => 0
  | n + 1 => chosen n x s + if s n then x n else 0

/-- `V` is the largest total value of a choice of items that is not too heavy. -/
def IsBest (n : Nat) (ws vs : Nat → Int) (limit V : Int) : Prop :=
  (∃ s, chosen n ws s ≤ limit ∧ chosen n vs s = V) ∧ ∀ s, chosen n ws s ≤ limit → chosen n vs s ≤ V

end Verif.Spec
