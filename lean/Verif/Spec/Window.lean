import Mathlib.Algebra.BigOperators.Intervals
import Mathlib.Algebra.Order.Field.Rat

/-!
# Specification: means over overlapping windows

A window of the detector covers the rows from `a` to `b` and the columns from `c` to `d`, all included.  A side of `n` pixels is divided
into `m` cells of `t` pixels; a window of size `s` begins at every cell for which it spans four cells, and the last one extends to the end of
the side.  Nothing here refers to the model of the code.
-/

namespace Verif.Spec

/-- The sum of `g` (row, column) over a rectangle. -/
def rectSum {R : Type} [AddCommMonoid R] (g : Nat → Nat → R) (a b c d : Nat) : R := ∑ i ∈ Finset.Ico a (b + 1), ∑ j ∈ Finset.Ico c (d + 1), g i j

/-- The last row (column) of the window that begins at the cell `k` of a side of `n` pixels. -/
def winStop (n t s k : Nat) : Nat := if k + 4 = n / t then n - 1 else t * k + s - 1

/-- The windows, by the cell of their upper left corner. -/
def windowsOf (rows cols t : Nat) : Finset (Nat × Nat) := Finset.range (rows / t - 3) ×ˢ Finset.range (cols / t - 3)

/-- The windows that contain the cell. -/
def coversCell (i j : Nat) (v : Nat × Nat) : Prop := v.1 ≤ i ∧ i < v.1 + 4 ∧ v.2 ≤ j ∧ j < v.2 + 4

instance (i j : Nat) (v : Nat × Nat) : Decidable (coversCell i j v) := by unfold coversCell; infer_instance

/-- The sum of `g` over a window. -/
def winSum {R : Type} [AddCommMonoid R] (g : Nat → Nat → R) (rows cols t s : Nat) (v : Nat × Nat) : R :=
  rectSum g (t * v.1) (winStop rows t s v.1) (t * v.2) (winStop cols t s v.2)

end Verif.Spec
