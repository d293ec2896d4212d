import Verif.Spec.Image

/-!
# Specification: removing small edges, following edges

`E` is a set of pixels of a `w × h` image.  Nothing here refers to the model of the code.
-/

namespace Verif.Spec

open Relation (ReflTransGen)

/-- `q` is reached from `p` over pixels of `E` that share an edge or a corner. -/
def EdgeConn (w h : Nat) (E : Nat × Nat → Prop) : Nat × Nat → Nat × Nat → Prop := ReflTransGen fun a b => Adj8 w h a b ∧ E b

/-- The pixel is not at the border of the image. -/
def Inner (w h : Nat) (p : Nat × Nat) : Prop := 0 < p.1 ∧ p.1 + 1 < w ∧ 0 < p.2 ∧ p.2 + 1 < h

/-- The edge of `p` does not touch the border of the image. -/
def FreeEdge (w h : Nat) (E : Nat × Nat → Prop) (p : Nat × Nat) : Prop := ∀ q, EdgeConn w h E p q → Inner w h q

open Classical in
/-- The number of pixels of the edge of `p`. -/
noncomputable def edgeSize (w h : Nat) (E : Nat × Nat → Prop) (p : Nat × Nat) : Nat := ((pixels w h).filter (EdgeConn w h E p)).card

/-- The edge of `p` has a pixel with at least the magnitude `k`, or more than `n` pixels. -/
def KeptEdge (w h : Nat) (E : Nat × Nat → Prop) (mag : Nat × Nat → Int) (k : Int) (n : Nat) (p : Nat × Nat) : Prop :=
  (∃ q, EdgeConn w h E p q ∧ k ≤ mag q) ∨ n < edgeSize w h E p

/-- The pixel belongs to `E` or is reached from a pixel of `E` over pixels of `T` with at least the magnitude `low`. -/
def Followed (w h : Nat) (E T : Nat × Nat → Prop) (mag : Nat × Nat → Int) (low : Int) (p : Nat × Nat) : Prop :=
  ∃ q, E q ∧ EdgeConn w h (fun b => E b ∨ (T b ∧ low ≤ mag b)) q p

end Verif.Spec
