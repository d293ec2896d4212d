import Verif.Model.Recognize
import Verif.Model.Linear

/-!
# Model: the original detector, flooding

Models `img_original_mser`, /repo/basicimg/src/img_origin_mser.cpp: `allocate_memory` (444–673), `resetPreInfo`
(419–426), `reversePixelValue` (688–704), `extractPass` (332–417) and `build_tree` (675–686).  Line numbers refer to
that file.

* `img` is the `i16` array `mTempImage` (padding and pixels left out by the mask are −32768), `pts` is `m_link_pts`,
  `regs`, `nreg` and `cap` are the elements, `size()` and `capacity()` of `m_regions`;
* pointers into `mTempImage`, `m_link_pts` and `m_regions` are indices; `mTempImage` and `m_link_pts` have the same
  number of cells, and the index of a cell is the same in both (356, 381);
* `m_stack_helper` is a list, top first; its `m_stack_helper_size` cells are accounted for.

Undefined behaviour (`none`): an access outside `mTempImage`, `m_link_pts`, `m_pts` or `m_stack_helper`; a use of a
pointer into `m_regions` after its elements were moved; an endless loop.  The image is stored without padding between
rows (`step()[0] == size()[1]`), a mask image has the size of the image.
-/

namespace Verif.Original

open Function (update)
open Verif.Linear (Dim Mask)
open Verif.Recog (Flag)

/-- `linked_point` (/repo/basicimg/include/img_origin_mser.h 40–47): `m_according_region`, `m_next`, `m_point`.
`m_head` is never used. -/
structure Point where
  reg : Option Nat
  next : Option Nat
  x : Int
  y : Int
deriving DecidableEq, Repr

/-- `mser_region` (/repo/basicimg/include/img_origin_mser.h 55–83) without the members `mStability` and `mRetention`,
which are never used. -/
structure Reg where
  head : Nat
  tail : Nat
  merged : Bool
  flag : Flag
  gray : Nat
  size : Nat
  parent : Option Nat
  short : Nat
  var : ℚ

/-- `activate_rect`. -/
structure Area where
  left : Nat
  top : Nat
  w : Nat
  h : Nat
deriving DecidableEq, Repr

/-- `rowMin`, `rowMax`, `colMin`, `colMax` (486–489, 543–546). -/
structure Bound where
  rowMin : Nat
  rowMax : Nat
  colMin : Nat
  colMax : Nat
deriving DecidableEq, Repr

/-- One pixel of the scan for the bounding box (498–503, 553–558). -/
def Bound.step (b : Bound) (p : Nat × Nat) : Bound :=
  { rowMin := min b.rowMin p.2, rowMax := max b.rowMax p.2, colMin := min b.colMin p.1, colMax := max b.colMax p.1 }

/-- The pixels of a `w × h` image as `(col, row)`, row by row. -/
def scan (w h : Nat) : List (Nat × Nat) := (List.range h).flatMap fun y => (List.range w).map fun x => (x, y)

/-- The pixels taken over: all (471–482), those with mask 1 (529–532), those that differ from the mask value
(579–582). -/
def keep (mask : Mask) (src : Nat → Nat → Nat) (x y : Nat) : Bool :=
  match mask with
  | .null => true
  | .rect _ _ _ _ => true
  | .image m => decide (m x y = 1)
  | .value v => decide (src x y ≠ v)

/-- The scan for the bounding box (486–510, 543–563).  If no pixel is kept, `rowMin`, `colMin` are the size of the
image and the size of the rectangle is `1 - size`: not positive, and the rest works with rows and columns that do not
exist.  The scan for a mask value (548–560) assumes that the rows of the image follow each other without gaps; so does
the model. -/
def bounding (W H : Nat) (k : Nat → Nat → Bool) : Option Area :=
  let b := ((scan W H).filter fun p => k p.1 p.2).foldl Bound.step ⟨H, 0, W, 0⟩
  if b.colMin ≤ b.colMax ∧ b.rowMin ≤ b.rowMax then
    some ⟨b.colMin, b.rowMin, b.colMax - b.colMin + 1, b.rowMax - b.rowMin + 1⟩
  else none

/-- `activate_rect` (453–510, 562–563) for an image of `W` columns and `H` rows.  A mask rectangle is used as it is;
if it does not lie in the image, pixels outside are read. -/
def active (W H : Nat) (mask : Mask) (src : Nat → Nat → Nat) : Option Area :=
  match mask with
  | .null => some ⟨0, 0, W, H⟩
  | .rect l t w h => if l + w ≤ W ∧ t + h ≤ H then some ⟨l, t, w, h⟩ else none
  | .image m => bounding W H (keep (.image m) src)
  | .value v => bounding W H (keep (.value v) src)

/-- `mTempImage` (463–482, 512–541, 565–590): cell `row * (w + 2) + col` for `1 ≤ row ≤ h`, `1 ≤ col ≤ w` is pixel
`(left + col - 1, top + row - 1)`. -/
def tempImage (A : Area) (k : Nat → Nat → Bool) (src : Nat → Nat → Nat) (i : Nat) : Int :=
  let row := i / (A.w + 2)
  let col := i % (A.w + 2)
  if 1 ≤ row ∧ row ≤ A.h ∧ 1 ≤ col ∧ col ≤ A.w then
    if k (A.left + col - 1) (A.top + row - 1) then (src (A.left + col - 1) (A.top + row - 1) : Int) else -0x8000
  else -0x8000

/-- The cells of the pixels, row by row: `mTempImage.ptr(row, col)` for `1 ≤ row ≤ h`, `1 ≤ col ≤ w`
(637–649, 662–672, 695–704). -/
def innerCells (A : Area) : List Nat := (scan A.w A.h).map fun p => (p.2 + 1) * (A.w + 2) + (p.1 + 1)

/-- `area` (460, 531, 581): the number of pixels taken over. -/
def areaOf (A : Area) (img : Nat → Int) : Nat := ((innerCells A).filter fun c => 0 ≤ img c).length

/-- `colorPixelCounts` (630–649). -/
def counts (A : Area) (img : Nat → Int) : Nat → Int :=
  (innerCells A).foldl (fun f c => if 0 ≤ img c then update f (img c).toNat (f (img c).toNat + 1) else f) (fun _ => 0)

/-- `m_pts[colorStartIndexs[*data]++] = mt_point(col, row)` (664–666); `m_pts` has `area` entries (633).  The entry is
given by the cell of `(row, col)`. -/
def place (img : Nat → Int) (area : Nat) (o : Recog.Ord Nat) (c : Nat) : Option (Recog.Ord Nat) :=
  if 0 ≤ img c then
    let i := o.pos (img c).toNat
    if 0 ≤ i ∧ i < (area : Int) then
      some { pos := update o.pos (img c).toNat (i + 1), cells := update o.cells i.toNat (some c) }
    else none
  else some o

/-- `m_pts` (630–672).  An entry that was not written (`none`) would be what `m_pts` contained before. -/
def sortPts (A : Area) (img : Nat → Int) (area : Nat) : Option (List Nat) :=
  match (innerCells A).foldlM (place img area) ⟨Recog.startIndex (counts A img), fun _ => none⟩ with
  | none => none
  | some o => Recog.readCells o.cells area

/-- What the detector keeps from one image to the next and `allocate_memory` does not overwrite: `m_regions`,
`m_stack_helper_size`, and `pcap`, the `capacity()` of `m_link_pts`. -/
structure Det where
  stackSize : Nat
  regs : Nat → Reg
  nreg : Nat
  cap : Nat
  pcap : Nat

/-- The members of the detector during a pass.  `cells` is the number of cells of `mTempImage`, `area` that of
`m_stack_helper`. -/
structure St where
  D : Dim
  area : Nat
  img : Nat → Int
  pts : Nat → Point
  order : List Nat
  regs : Nat → Reg
  nreg : Nat
  cap : Nat
  pcap : Nat
  stack : List Nat

/-- The points after allocation (612–628). -/
def freshPts (A : Area) (i : Nat) : Point :=
  { reg := none, next := none, x := ((i % (A.w + 2) : Nat) : Int) + A.left - 1, y := ((i / (A.w + 2) : Nat) : Int) + A.top - 1 }

/-- What moving the elements of `m_regions` (`m_regions.reserve`, 608) or `m_link_pts` (`resize`, 610) does to the
pointers kept in regions: they are replaced by indices that no element has. -/
def dangle (moveR moveP : Bool) (badR badP : Nat) (x : Reg) : Reg :=
  let x := if moveR then { x with parent := x.parent.map fun _ => badR, short := badR } else x
  if moveP then { x with head := badP, tail := badP } else x

/-- `allocate_memory` (444–673). -/
def allocate (d : Det) (W H : Nat) (eight : Bool) (mask : Mask) (src : Nat → Nat → Nat) : Option St :=
  match active W H mask src with
  | none => none
  | some A =>
    let img := tempImage A (keep mask src) src
    let area := areaOf A img
    let D : Dim := ⟨A.w, A.h, eight⟩
    match sortPts A img area with
    | none => none
    | some order =>
      let nreg := if d.stackSize ≠ area then d.nreg else 0                                -- 594–600
      some { D := D, area := area, img := img, pts := freshPts A, order := order,
             regs := fun r => dangle (decide (d.cap < area)) (decide (d.pcap < D.cells)) (max d.cap area) D.cells (d.regs r)
             nreg := nreg, cap := max d.cap area, pcap := max d.pcap D.cells, stack := [] }

/-- `resetPreInfo` (419–426). -/
def reset (s : St) : St :=
  { s with nreg := 0, pts := fun i => { s.pts i with reg := none, next := none } }

/-- `reversePixelValue` (688–704). -/
def reverse (s : St) : St := { s with img := fun i => if 0 ≤ s.img i then 0xff - s.img i else s.img i }

/-- The search for the root (394–398), at most `n` iterations: `otherRegion` and the shortcuts. -/
def findRoot (cur : Nat) : Nat → Nat → (Nat → Reg) → Option (Nat × (Nat → Reg))
  | n, o, regs =>
    if (regs o).short = o then some (o, regs)
    else
      match n with
      | 0 => none
      | n + 1 => findRoot cur n (regs o).short (update regs o { regs o with short := cur })

/-- A neighbour without region (383–390). -/
def append (cur o : Nat) (s : St) : Option St :=
  if s.stack.length < s.area then
    let t := (s.regs cur).tail
    let pts := update s.pts t { s.pts t with next := some o }
    some { s with
      pts := update pts o { pts o with reg := some cur }
      regs := update s.regs cur { s.regs cur with tail := o, size := (s.regs cur).size + 1 }
      stack := o :: s.stack }
  else none

/-- A neighbour of region `q` (391–411). -/
def meet (cur q : Nat) (s : St) : Option St :=
  match findRoot cur s.nreg (s.regs q).short s.regs with
  | none => none
  | some (root, regs) =>
    let regs := update regs q { regs q with short := cur }
    if root ≠ cur then
      let regs := update regs root
        { regs root with merged := decide ((regs root).gray = (regs cur).gray), parent := some cur }
      let t := (regs cur).tail
      let pts := update s.pts t { s.pts t with next := some (regs root).head }
      let regs := update regs cur
        { regs cur with tail := (regs root).tail, size := (regs cur).size + (regs root).size }
      some { s with pts := pts, regs := update regs root { regs root with short := cur } }
    else some { s with regs := regs }

/-- Body of the loop over the neighbours (373–413); `k` is `j - 1`, `top` is `topImageData`. -/
def look (cur top : Nat) (s : St) (k : Nat) : Option St :=
  match s.D.nbr top k with
  | none => none
  | some o =>
    if s.img o < 0 then some s
    else if s.img o ≤ s.img top then
      match (s.pts o).reg with
      | none => append cur o s
      | some q => meet cur q s
    else some s

/-- The loop over the stack (370–414), at most `n` iterations. -/
def grow (cur : Nat) : Nat → St → Option St
  | n, s =>
    match s.stack with
    | [] => some s
    | top :: rest =>
      match n with
      | 0 => none
      | n + 1 =>
        match (List.range s.D.dirs.length).foldlM (look cur top) { s with stack := rest } with
        | none => none
        | some s => grow cur n s

/-- Body of the loop over `m_pts` (354–416).  `push_back` beyond the capacity moves the regions; the pointers to
regions in `m_link_pts` and in the regions are used later. -/
def seed (s : St) (i : Nat) : Option St :=
  match (s.pts i).reg with
  | some _ => some s
  | none =>
    if s.nreg < s.cap ∧ s.stack.length < s.area ∧ 0 ≤ s.img i then
      let cur := s.nreg
      grow cur s.area { s with
        nreg := s.nreg + 1
        pts := update s.pts i { s.pts i with reg := some cur }
        regs := update s.regs cur
          { head := i, tail := i, merged := false, flag := .unknown, gray := (s.img i).toNat, size := 1, parent := none,
            short := cur, var := -1 }
        stack := i :: s.stack }
    else none

/-- `extractPass` (332–417): `m_pts` forwards or backwards. -/
def extractPass (fromMin : Bool) (s : St) : Option St :=
  (if fromMin then s.order else s.order.reverse).foldlM seed s

/-- `build_tree` (675–686); `fm` is `m_from_min_max[0]`. -/
def buildTree (fm : Bool) (gm : Nat) (s : St) : Option St :=
  if gm = 0 then extractPass true s
  else extractPass false (reverse (if fm then reset s else s))

end Verif.Original
