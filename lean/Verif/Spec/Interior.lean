import Verif.Spec.Image
import Verif.Spec.Conn

/-!
# The inner pixels of an image
-/

namespace Verif.Spec

/-- The pixels that are not in the first or last row or column. -/
def interior (w h : Nat) : Finset (Nat × Nat) :=
  (pixels w h).filter fun p => 1 ≤ p.1 ∧ p.1 + 1 < w ∧ 1 ≤ p.2 ∧ p.2 + 1 < h

/-- Two inner pixels share an edge. -/
def AdjInner (w h : Nat) (p q : Nat × Nat) : Prop := p ∈ interior w h ∧ q ∈ interior w h ∧ Adj4 w h p q

/-- The points are, each once, the pixels of one connected component of the inner pixels with `gv ≤ lev`. -/
def IsInnerRegion (w h : Nat) (gv : Nat × Nat → Nat) (lev : Nat) (D : List (Nat × Nat)) : Prop :=
  D.Nodup ∧ ∃ p₀ ∈ interior w h, gv p₀ ≤ lev ∧ ∀ p, p ∈ D ↔ p ∈ interior w h ∧ LConn (AdjInner w h) gv lev p₀ p

/-- The gray values as the dark (`gm = 0`) or the bright pass compares them. -/
def passGray (img : Nat → Nat → Nat) (gm : Nat) (p : Nat × Nat) : Nat := if gm = 0 then img p.1 p.2 else 255 - img p.1 p.2

end Verif.Spec
