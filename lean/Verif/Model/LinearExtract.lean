import Verif.Model.LinearRecog
import Verif.Model.Extract
import Verif.Model.Helper

/-!
# Model: the linear detector, extraction of the pixels

`img_linked_linear_mser::extract_pixel` (/repo/basicimg/src/img_linked_linear_mser.cpp 874–879) calls
`extract_pixel_share_memory` (926–1009).  The reader is the case `Memory_Type_Share` of `image_from_mser`
(/repo/basicimg/src/img_mser_helper.cpp 56–66).  Line numbers refer to the first file unless said otherwise.

The memory is a table of points, `none` for a cell not written.  Every access outside of the allocated cells and
outside of the points of this pass, every read of a null pointer and every read of an unwritten cell is the outcome
`none` of the function.
-/

namespace Verif.Linear

open Function (update)
open Verif.Recog (Recognized)

/-- `colMin`, `rowMin`, `colMax`, `rowMax` (979–982). -/
structure Box where
  xmin : Nat
  ymin : Nat
  xmax : Nat
  ymax : Nat

/-- The box before the loop (979–982). -/
def Box.start (x y : Nat) : Box := ⟨x, y, x, y⟩

/-- The update of the box (989–999). -/
def Box.step (b : Box) (x y : Nat) : Box :=
  let b := if b.xmax < x then { b with xmax := x } else if x < b.xmin then { b with xmin := x } else b
  if b.ymax < y then { b with ymax := y } else if y < b.ymin then { b with ymin := y } else b

/-- `set_rect(mt_point(colMin, rowMin), mt_point(colMax, rowMax))` (1004; /repo/basicmath/include/mt_rect_t.h 96–101). -/
def Box.rect (b : Box) : Extract.Rect :=
  ⟨b.xmin, b.ymin, (b.xmax : Int) - b.xmin + 1, (b.ymax : Int) - b.ymin + 1⟩

/-- The copied points. -/
abbrev Cells := Nat → Option (Nat × Nat)

/-- The loop that copies `k` points beginning with `o` to the cells from `pos` on (984–1002).  The points of this
pass are `pts 0 … pts (npts-1)`, the memory has `msize` cells. -/
def copyList (pts : Nat → Point) (npts : Nat) (msize : Int) : Nat → Option Nat → Nat → Cells → Box → Option (Cells × Box)
  | 0, _, _, mem, b => some (mem, b)
  | _ + 1, none, _, _, _ => none
  | k + 1, some p, pos, mem, b =>
    if p < npts ∧ (pos : Int) < msize then
      copyList pts npts msize k (pts p).next (pos + 1) (update mem pos (some ((pts p).x, (pts p).y)))
        (b.step (pts p).x (pts p).y)
    else none

/-- A record `img_mser`; `points` is `m_points - memory`, `m_memory_type` is `Memory_Type_Share` (962). -/
structure RecL where
  size : Nat
  gray : Nat
  points : Nat
  rect : Extract.Rect

/-- The loop over the reported regions (958–1005); `off` is `memory_offset - memory`. -/
def extractLoop (gm : Nat) (s : St) (msize : Int) : List Nat → Nat → Cells → Option (Cells × List RecL)
  | [], _, mem => some (mem, [])
  | r :: rs, off, mem =>
    let R := s.regs r
    if R.head < s.npts then
      match copyList s.pts s.npts msize R.size (some R.head) off mem (Box.start (s.pts R.head).x (s.pts R.head).y) with
      | none => none
      | some (mem, b) =>
        match extractLoop gm s msize rs (off + R.size) mem with
        | none => none
        | some (mem, recs) =>
          some (mem, { size := R.size, gray := if gm = 0 then R.gray else 255 - R.gray, points := off, rect := b.rect } :: recs)
    else none

/-- The result of extraction. -/
structure XOutL where
  mem : Cells
  msize : Int
  recs : List RecL

/-- `extract_pixel` (874–879, 926–1009).  `m_channel_total_pixel_number` is a `u32`, `region_memory_size` an `i32` (933);
with a negative number `malloc` is asked for more than the address space (935). -/
def extractL (gm : Nat) (s : St) (out : Recognized Nat) : Option XOutL :=
  let msize := Helper.toI32 ((out.pixels % 2 ^ 32 : Nat) : Int)
  match extractLoop gm s msize out.reported 0 (fun _ => none) with
  | none => none
  | some (mem, recs) => some ⟨mem, msize, recs⟩

/-- `m_points[i]` for `i < m_size` (img_mser_helper.cpp 57–59). -/
def readShare (x : XOutL) (r : RecL) : Option (List (Nat × Nat)) :=
  (List.range r.size).mapM fun (i : Nat) => if ((r.points + i : Nat) : Int) < x.msize then x.mem (r.points + i) else none

end Verif.Linear
