import Verif.Model.FloodV1
import Verif.Model.Eight

/-!
# Model: the patches of Fast MSER V1

`allocate_memory` (/repo/basicimg/src/img_fast_mser_v1.cpp 79–112), `allocate_memory_parallel_1` (114–181) and
`process_tree_patch` (1307–1556) give a patch of width `w` and height `h` an array of `(w+2)*(h+2)` cells.
Line numbers refer to that file.
-/

namespace Verif.V1

open Verif.Flood (Patch gridPatch nb8 nb4)

/-- A patch of an image; `eight` is `m_connected_type == img_Connected_Type_8_Neibour`: the directions are those
of V2 (164–180), but here the tour has 8 of them (`m_dir_max = 0x1000`, 105–111).  The array `m_comp` has 256
entries (img_fast_mser_v1.h 110). -/
def patchV1 (eight : Bool) (w h : Nat) (img : Nat → Nat → Nat) (gm : Nat) : Patch :=
  { gridPatch w h img gm with
    nd := if eight then 8 else 4
    nb := if eight then nb8 w else nb4 w }

/-- The geometry of a patch at column `left` and row `top` of the image (144–149, 1094–1117). -/
def geoV1 (w h left top : Nat) (joined : Nat → Bool) : Geo where
  left := left
  top := top
  width := w
  height := h
  wb := w + 2
  joined := joined

/-- `make_tree_patch` on a patch: the outcome of its loop.  The number of steps offered is the exact number
needed (property C61). -/
def makeTreePatch (eight : Bool) (w h : Nat) (img : Nat → Nat → Nat) (gm left top : Nat) (joined : Nat → Bool)
    (base : Nat) (pts : Nat → Point) (border : Nat → Nat → Option Nat) : Out :=
  run (patchV1 eight w h img gm) (geoV1 w h left top joined) ((if eight then 9 else 5) * (w * h))
    (init (patchV1 eight w h img gm) base pts border)

end Verif.V1
