import Verif.Model.Flood
import Mathlib.Data.Finset.Prod

/-!
# Model: the padded patch array

`allocate_memory` (/repo/basicimg/src/img_fast_mser_v2.cpp 140–183) gives each patch of width `w`
and height `h` an array of `(w+2)*(h+2)` cells; `process_tree_patch` (406–475) fills it.
-/

namespace Verif.Flood

/-- Index of pixel `(x, y)` in the padded array (img_fast_mser_v2.cpp 247, 416–441: one padding
row above, one padding cell left and right of every row). -/
def idx (w x y : Nat) : Nat := (y + 1) * (w + 2) + (x + 1)

/-- `points + dir[k]` with the 4-neighbour directions (img_fast_mser_v2.cpp 160, 173–177). -/
def nb4 (w i : Nat) : Nat → Nat
  | 1 => i + 1
  | 2 => i - (w + 2)
  | 3 => i - 1
  | 4 => i + (w + 2)
  | _ => i

/-- A patch of an image in 4-neighbour mode. `img x y` is the gray value of column `x` and row `y`
of the patch, `gm` the gray mask XORed to it (0: dark regions, 255: bright regions). -/
def gridPatch (w h : Nat) (img : Nat → Nat → Nat) (gm : Nat) : Patch where
  nd := 4
  nb := nb4 w
  gray := fun i => img (i % (w + 2) - 1) (i / (w + 2) - 1) ^^^ gm
  start := 1 + (w + 2)
  cap := 256
  px := (Finset.range w ×ˢ Finset.range h).image (fun p => idx w p.1 p.2)

/-- The tree of a patch seen from its pixels `(x, y)`. -/
def gridTree (w : Nat) (s : St) : Spec.RegionTree (Nat × Nat) Nat where
  isReg := fun r => r < s.nreg
  lab := fun p => s.lab (idx w p.1 p.2)
  gray := fun r => (s.regs r).gray
  parent := fun r => (s.regs r).parent
  size := fun r => (s.regs r).size

/-- `make_tree_patch` on a `w × h` patch: the state in which its loop ends. The number of
elementary steps offered is the exact number needed (property C04). -/
def makeTreePatch (w h : Nat) (img : Nat → Nat → Nat) (gm : Nat) : Out :=
  run (gridPatch w h img gm) (5 * (w * h)) (init (gridPatch w h img gm))

end Verif.Flood
