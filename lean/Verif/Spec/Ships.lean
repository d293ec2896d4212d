import Mathlib.Data.List.Count

/-!
# Specification: ships on a board
-/

namespace Verif.Spec

/-- A ship: the rows and columns of its corners, numbers from 0. -/
structure Ship where
  top : Nat
  left : Nat
  bottom : Nat
  right : Nat

/-- A cell (row, column) belongs to a ship. -/
def Ship.Has (s : Ship) (p : Nat × Nat) : Prop := s.top ≤ p.1 ∧ p.1 ≤ s.bottom ∧ s.left ≤ p.2 ∧ p.2 ≤ s.right

/-- All cells of the ship are hit. -/
def Ship.Sunk (s : Ship) (hits : List (Nat × Nat)) : Prop := ∀ p, s.Has p → p ∈ hits

/-- A cell of the ship is hit, but not all are. -/
def Ship.Damaged (s : Ship) (hits : List (Nat × Nat)) : Prop := (∃ p, s.Has p ∧ p ∈ hits) ∧ ¬ s.Sunk hits

/-- The name of a cell: its row in decimal digits from 1, and a letter for its column. -/
def cellName (p : Nat × Nat) : List Char := (Nat.toDigits 10 (p.1 + 1)) ++ [Char.ofNat (65 + p.2)]

end Verif.Spec
