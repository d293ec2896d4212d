import Verif.Spec.Image

/-!
# Specification: edges of an image by two thresholds

`mag`, `dx`, `dy` are the magnitude of the gradient and its components, as integers, for the column `x` and the row `y`.
Nothing here refers to the model of the code.
-/

namespace Verif.Spec

open Relation (ReflTransGen)

/-- The gradient of an image. -/
structure Gradient where
  w : Nat
  h : Nat
  mag : Nat → Nat → Int
  dx : Nat → Nat → Int
  dy : Nat → Nat → Int

/-- The magnitude, 0 outside of the image. -/
def Gradient.ext (G : Gradient) (x y : Int) : Int := if 0 ≤ x ∧ x < G.w ∧ 0 ≤ y ∧ y < G.h then G.mag x.toNat y.toNat else 0

/-- The magnitude is a maximum along the direction of the gradient: horizontal below 22.5°, vertical above 67.5°, else diagonal; the
tangents are 13573/32768 and 79109/32768. -/
def Gradient.Ridge (G : Gradient) (x y : Nat) : Prop :=
  if 32768 * (G.dy x y).natAbs < 13573 * (G.dx x y).natAbs then G.ext (x - 1) y < G.mag x y ∧ G.ext (x + 1) y ≤ G.mag x y
  else if 79109 * (G.dx x y).natAbs < 32768 * (G.dy x y).natAbs then G.ext x (y - 1) < G.mag x y ∧ G.ext x (y + 1) ≤ G.mag x y
  else if (G.dx x y < 0) ↔ (G.dy x y < 0) then G.ext (x - 1) (y - 1) < G.mag x y ∧ G.ext (x + 1) (y + 1) < G.mag x y
  else G.ext (x + 1) (y - 1) < G.mag x y ∧ G.ext (x - 1) (y + 1) < G.mag x y

/-- A pixel that can belong to an edge. -/
def Gradient.Candidate (G : Gradient) (low : Int) (p : Nat × Nat) : Prop := p ∈ pixels G.w G.h ∧ low < G.mag p.1 p.2 ∧ G.Ridge p.1 p.2

/-- `p` is reached from `q` over candidates that share an edge or a corner. -/
def Gradient.Reach (G : Gradient) (low : Int) : Nat × Nat → Nat × Nat → Prop := ReflTransGen fun a b => Adj8 G.w G.h a b ∧ G.Candidate low b

/-- The pixel belongs to an edge: it is reached from a candidate above the high threshold. -/
def Gradient.IsEdge (G : Gradient) (low high : Int) (p : Nat × Nat) : Prop := ∃ q, G.Candidate low q ∧ high < G.mag q.1 q.2 ∧ G.Reach low q p

end Verif.Spec
