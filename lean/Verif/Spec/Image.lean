import Verif.Spec.Conn
import Mathlib.Data.Finset.Prod

/-!
# Specification: images, 4- and 8-adjacency

Pixels of a `w × h` image are coordinate pairs `(x, y)` with `x < w`, `y < h`.
-/

namespace Verif.Spec

/-- The pixels of a `w × h` image. -/
def pixels (w h : Nat) : Finset (Nat × Nat) := Finset.range w ×ˢ Finset.range h

/-- Two pixels share an edge. -/
def Adj4 (w h : Nat) (p q : Nat × Nat) : Prop :=
  p ∈ pixels w h ∧ q ∈ pixels w h ∧
    ((p.2 = q.2 ∧ (p.1 + 1 = q.1 ∨ q.1 + 1 = p.1)) ∨ (p.1 = q.1 ∧ (p.2 + 1 = q.2 ∨ q.2 + 1 = p.2)))

/-- Two pixels share an edge or a corner. -/
def Adj8 (w h : Nat) (p q : Nat × Nat) : Prop :=
  p ∈ pixels w h ∧ q ∈ pixels w h ∧ p ≠ q ∧
    p.1 ≤ q.1 + 1 ∧ q.1 ≤ p.1 + 1 ∧ p.2 ≤ q.2 + 1 ∧ q.2 ≤ p.2 + 1

theorem mem_pixels {w h : Nat} {p : Nat × Nat} : p ∈ pixels w h ↔ p.1 < w ∧ p.2 < h := by
  simp [pixels]

end Verif.Spec
