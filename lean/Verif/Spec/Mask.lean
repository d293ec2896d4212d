import Verif.Spec.Image
import Verif.Model.Linear

/-!
# Specification: masked images

A mask leaves some pixels of the image out.  The components of a masked image are those of the graph of the remaining
pixels.
-/

namespace Verif.Spec

open Verif.Linear (Mask)

/-- The mask leaves the pixel in: no mask, inside the mask rectangle, mask image 1, not the mask value. -/
def LeftIn (mask : Mask) (src : Nat → Nat → Nat) (p : Nat × Nat) : Prop :=
  match mask with
  | .null => True
  | .rect l t w h => l ≤ p.1 ∧ p.1 < l + w ∧ t ≤ p.2 ∧ p.2 < t + h
  | .image m => m p.1 p.2 = 1
  | .value v => src p.1 p.2 ≠ v

instance (mask : Mask) (src : Nat → Nat → Nat) : DecidablePred (LeftIn mask src) := fun p => by
  unfold LeftIn; cases mask <;> infer_instance

/-- The pixels of a `W × H` image that the mask leaves in. -/
def keptPx (W H : Nat) (mask : Mask) (src : Nat → Nat → Nat) : Finset (Nat × Nat) := (pixels W H).filter (LeftIn mask src)

/-- Neighbours, both of them among the pixels `K`. -/
def AdjIn (eight : Bool) (W H : Nat) (K : Finset (Nat × Nat)) (p q : Nat × Nat) : Prop :=
  p ∈ K ∧ q ∈ K ∧ if eight then Adj8 W H p q else Adj4 W H p q

theorem mem_keptPx {W H : Nat} {mask : Mask} {src : Nat → Nat → Nat} {p : Nat × Nat} :
    p ∈ keptPx W H mask src ↔ (p.1 < W ∧ p.2 < H) ∧ LeftIn mask src p := by
  rw [keptPx, Finset.mem_filter, mem_pixels]

end Verif.Spec
