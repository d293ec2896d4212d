import Mathlib.Logic.Equiv.Defs
import Mathlib.Order.Defs.LinearOrder

/-!
# What sorting means

Vectors of size `n` are functions from indexes of which the first `n` values count.
-/

namespace Verif.Spec

/-- The order in the requested direction. -/
def Dir {T : Type} [LinearOrder T] (inc : Bool) (a b : T) : Prop := if inc then a ≤ b else b ≤ a

/-- The first `n` elements are in order. -/
def SortedUpTo {T : Type} [LinearOrder T] (inc : Bool) (n : Nat) (f : Nat → T) : Prop :=
  ∀ i j, i ≤ j → j < n → Dir inc (f i) (f j)

/-- `g` is a rearrangement of the first `n` elements of `f`, by the permutation `σ` of the indexes below `n`. -/
def RearrangedBy {T : Type} (n : Nat) (σ : Equiv.Perm Nat) (f g : Nat → T) : Prop :=
  (∀ i, n ≤ i → σ i = i) ∧ ∀ i, g i = f (σ i)

/-- `kept` are the `k` largest (`big`) or smallest of the values `seen`, or all if there are fewer; `rest` are the others. -/
def IsTopK {T : Type} [LinearOrder T] (big : Bool) (k : Nat) (seen kept : List T) : Prop :=
  kept.length = min k seen.length ∧ ∃ rest, (kept ++ rest).Perm seen ∧ ∀ a ∈ kept, ∀ b ∈ rest, Dir big b a

end Verif.Spec
