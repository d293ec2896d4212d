import Verif.Model.Process
import Verif.Model.Eight
import Verif.Model.LinearRecog

/-!
# Model: the ms detector, flooding and recognition

`img_ms_mser`, /repo/basicimg/src/img_ms_mser.cpp and /repo/basicimg/include/img_ms_mser.h.  Line numbers refer to the
first file.  The loop of `build_tree` (250–356) is, statement for statement, the loop of V2's `make_tree_patch` on one
patch that is the whole image; it is taken from there (`FloodMem.init`, `tour`, `finish`, `run`).  What differs is given
here: the order of the directions, the size of the heap, the preparation, the array of regions.

* `m_mask_mask` is 0 (125), so `get_gray` (223) is `image ^ gray_mask`.
* A region stores the level in 8 bits (`(u8)comptr->m_gray_level`, 366 and 377); the model stores it whole.  Levels are
  below 256 in every run covered by the theorems, as no pixel is masked.
* Regions are entries of an array of `width * height` entries (79–88); `FloodMem` numbers them in the order of their
  making.  That the number never passes the size of the array is `C86_regions_fit`.
-/

namespace Verif.Ms

open Verif.Flood (Patch gridPatch)
open Verif.FloodMem (Buf MOut levelSizes reverseLevels prepareFirst prepareSecond)
open Verif.Recog

/-- `points + m_dir[k]` with the 4-neighbour directions (141–144). -/
def nbM (w i : Nat) : Nat → Nat
  | 1 => i + 1
  | 2 => i - 1
  | 3 => i + (w + 2)
  | 4 => i - (w + 2)
  | _ => i

/-- The padded image (`m_points`, `m_extended_image`: 57–77, 230) in 4-neighbour mode; `m_comp` has 256 entries
(img_ms_mser.h, `connected_comp m_comp[256]`). -/
def msPatch (w h : Nat) (img : Nat → Nat → Nat) (gm : Nat) : Patch :=
  { gridPatch w h img gm with nb := nbM w }

/-- The padded image in 8-neighbour mode (127–136): the directions are those of V2, and the tour is
`while (nbr_index <= 4)` (254) here too. -/
def msPatch8 (w h : Nat) (img : Nat → Nat → Nat) (gm : Nat) : Patch := Flood.patch8 w h img gm

/-- `h_size = rg_size + 257 * 4` (90). -/
def heapCells (w h : Nat) : Nat := w * h + 257 * 4

/-- `pre_process_image` (151–218) without mask; `ls` is `m_level_size` as left by the previous pass, `fromMin` is
`m_from_min_max[0]`.  The rows of padding and of pixels are written as a function of the cell.  `m_extended_image`,
written only in the first branch (178), is represented by `img`: the second branch runs after the first with the same
image. -/
def preProcess (w h : Nat) (img : Nat → Nat → Nat) (gm : Nat) (fromMin : Bool) (b : Buf) (ls : Nat → Nat) :
    Buf × (Nat → Nat) :=
  if gm = 0 ∨ fromMin = false then
    (prepareFirst (msPatch w h img gm) (levelSizes w h img) b, levelSizes w h img)
  else
    (prepareSecond (msPatch w h img gm) (reverseLevels ls) b, reverseLevels ls)

/-- `build_tree` (220–362), at most `n` steps of its loop. -/
def buildTree (w h : Nat) (img : Nat → Nat → Nat) (gm : Nat) (fromMin : Bool) (n : Nat) (b : Buf) (ls : Nat → Nat) :
    MOut :=
  FloodMem.run (msPatch w h img gm) (heapCells w h) n
    (FloodMem.init (msPatch w h img gm) (preProcess w h img gm fromMin b ls).1)

/-- What `m_extended_image` holds at cell `i` when the flooding begins, if the array is new: `none` stands for memory
nobody wrote.  Only with `img_Mask_Type_Null` pixels are copied (171–185). -/
def extended (nullMask : Bool) (w h : Nat) (img : Nat → Nat → Nat) (i : Nat) : Option Nat :=
  if nullMask = true ∧ i ∈ (gridPatch w h img 0).px then some ((gridPatch w h img 0).gray i) else none

/-- `curr_gray = get_gray(points)` (235): the first read of the image. -/
def firstGray (nullMask : Bool) (w h : Nat) (img : Nat → Nat → Nat) (gm : Nat) : Option Nat :=
  (extended nullMask w h img (gridPatch w h img 0).start).map (· ^^^ gm)

/-! ### Recognition

`calculate_variation` (554–570), the two loops of `recognize_mser_normal` (400–420, 428–455), the ordering (491–498),
`get_duplicated_regions` (873–907) and the loops over the ordered regions (500–551) are, loop body for loop body, those of the
linear detector (`Linear.climbL`, `calcVarL`, `visitL`, `nmsL`, `placeL`; `Recog.getDuplicated`, `dedup`, `keepAll`).
The array of the ordered regions is allocated by the rule of V2 (471–489, `Recog.reserve`). -/

/-- The regions as `build_tree` leaves them; entries from `nreg` on were not written in this pass. -/
def forestM (nreg : Nat) (regs : Nat → Flood.Reg) : Connect.Forest Nat := fun r =>
  if r < nreg then { gray := (regs r).gray, parent := (regs r).parent, merged := false, size := (regs r).size }
  else { gray := 0, parent := none, merged := false, size := 0 }

/-- `recognize_mser_normal` with `remove_duplicated` (392–552). -/
def recognizeM {ι : Type} [DecidableEq ι] (cfg : Cfg) (order : List ι) (msize exceed : Nat) (R : RForest ι) :
    Option (Recognized ι) :=
  match Linear.selectL cfg order R with
  | none => none
  | some s =>
    match Linear.orderL s order (reserve msize (startIndex s.lev 256).toNat exceed).1 with
    | none => none
    | some arr => if 0 < cfg.dup then dedup cfg s.R arr else some (keepAll s.R arr)

/-- `recognize_mser` (388–390) after `build_tree`; `v` is whatever `m_var` contains, `msize` and `exceed` are
`m_gray_order_regions_memory_size` and `m_exceed_times`.  A parent that is not one of the regions of this pass is
undefined behaviour. -/
def recognize (cfg : Cfg) (nreg : Nat) (regs : Nat → Flood.Reg) (v : Nat → ℚ) (msize exceed : Nat) :
    Option (Recognized Nat) :=
  if ∀ r < nreg, ∀ p, (regs r).parent = some p → p < nreg then
    recognizeM cfg (List.range nreg) msize exceed (ofForest (forestM nreg regs) v)
  else none

end Verif.Ms
