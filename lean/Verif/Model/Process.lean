import Verif.Model.FloodMem
import Verif.Model.Grid

/-!
# Model: preparation of a patch

`process_tree_patch`, /repo/basicimg/src/img_fast_mser_v2.cpp 406–475, as called for one patch by
`make_tree_patch` (239), with the flag `m_from_min_max[0]` (img_mser_base.h 83, 124–126) that says
whether dark regions are extracted too.
-/

namespace Verif.FloodMem

open Verif.Flood (gridPatch)
open Function (update)

/-- `level_size[*img_data]++` (img_fast_mser_v2.cpp 430): the raw image value, not XORed with the
gray mask. -/
def countPixel (img : Nat → Nat → Nat) (y : Nat) (ls : Nat → Nat) (x : Nat) : Nat → Nat :=
  update ls (img x y) (ls (img x y) + 1)

/-- `memset` and the two loops (img_fast_mser_v2.cpp 417, 428–441). -/
def levelSizes (w h : Nat) (img : Nat → Nat → Nat) : Nat → Nat :=
  (List.range h).foldl (fun ls y => (List.range w).foldl (countPixel img y) ls) (fun _ => 0)

/-- `process_tree_patch` (img_fast_mser_v2.cpp 406–475); `ls` is `m_level_size` as left by the
previous pass, `fromMin` is `m_from_min_max[0]`.  The image copy `m_extended_image` is represented by
`img` itself, for both passes. -/
def processTreePatch (w h : Nat) (img : Nat → Nat → Nat) (gm : Nat) (fromMin : Bool)
    (b : Buf) (ls : Nat → Nat) : Buf × (Nat → Nat) :=
  if gm = 0 ∨ fromMin = false then
    (prepareFirst (gridPatch w h img gm) (levelSizes w h img) b, levelSizes w h img)
  else
    (prepareSecond (gridPatch w h img gm) (reverseLevels ls) b, reverseLevels ls)

/-- `make_tree_patch`: preparation, then at most `n` steps of the flooding loop. -/
def pass (w h : Nat) (img : Nat → Nat → Nat) (gm : Nat) (fromMin : Bool) (hsize n : Nat)
    (b : Buf) (ls : Nat → Nat) : MOut :=
  run (gridPatch w h img gm) hsize n
    (init (gridPatch w h img gm) (processTreePatch w h img gm fromMin b ls).1)

end Verif.FloodMem
