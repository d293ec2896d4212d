import Verif.Model.Grid
import Verif.Model.Process
import Verif.Model.Connect

/-!
# Model: division into patches, and the order in which patches are joined

`img_fast_mser_v2::allocate_memory` 53–201, `merge_tree_parallel_4` 502–507,
`merge_tree_parallel_32` 509–551, `merge_tree_parallel_step` 553–605
(/repo/basicimg/src/img_fast_mser_v2.cpp); the same division with other numbers of rows and columns is
written out in `img_fast_mser_v1::allocate_memory_parallel_{1,2,4,8,16,32}`
(/repo/basicimg/src/img_fast_mser_v1.cpp 114–932).

`u32` arithmetic is done in the natural numbers; the subtraction at lines 87 and 96 never goes below
zero (proved: `lengths_sum`).
-/

namespace Verif.Partition

/-- Columns and rows of patches for a thread number (img_fast_mser_v2.cpp 54–69); any other number
fails the assertion at 68. -/
def layoutV2 : Nat → Option (Nat × Nat)
  | 1 => some (1, 1)
  | 4 => some (2, 2)
  | 32 => some (8, 4)
  | _ => none

/-- The same for V1 (img_fast_mser_v1.cpp 91–103, 117–119, 184–191, 305–314, 447–457, 608–618,
772–782). -/
def layoutV1 : Nat → Option (Nat × Nat)
  | 1 => some (1, 1)
  | 2 => some (2, 1)
  | 4 => some (2, 2)
  | 8 => some (4, 2)
  | 16 => some (4, 4)
  | 32 => some (8, 4)
  | _ => none

/-- `horizontal_paratition_indexes` / `vertical_partition_indexes` (img_fast_mser_v2.cpp 79–85,
89–94), `n` parts of `total`. -/
def starts (n total : Nat) : Nat → Nat
  | 0 => 0
  | i + 1 => starts n total i + total / n

/-- `widths` / `heights` (84, 87, 93, 96). -/
def lengths (n total i : Nat) : Nat :=
  if i < n - 1 then total / n else total - starts n total (n - 1)

/-- Place of a patch in the image: the fields of `parallel_info` set at 149–152. -/
structure PInfo where
  left : Nat
  top : Nat
  width : Nat
  height : Nat
deriving DecidableEq, Repr

/-- The two loops at 145–186: `hp` columns, `vp` rows of patches, `w × h` image. -/
def pinfos (hp vp w h : Nat) : List PInfo :=
  (List.range vp).flatMap fun v => (List.range hp).map fun c =>
    ⟨starts hp w c, starts vp h v, lengths hp w c, lengths vp h v⟩

/-- `m_pinfo[k]`. -/
def pinfo (hp vp w h k : Nat) : PInfo :=
  ⟨starts hp w (k % hp), starts vp h (k / hp), lengths hp w (k % hp), lengths vp h (k / hp)⟩

/-- `memory_offset_for_heap` when patch `k` is set up (142, 157, 181): patches before it have taken
their pixel count plus 257 each.  `pinfo.m_heap_start[0]` points there (158). -/
def heapBase (pi : Nat → PInfo) : Nat → Nat
  | 0 => 0
  | k + 1 => heapBase pi k + ((pi k).width * (pi k).height + 257)

/-- `memory_offset_with_boundary` (143, 154–155, 177). -/
def pointBase (pi : Nat → PInfo) : Nat → Nat
  | 0 => 0
  | k + 1 => pointBase pi k + ((pi k).width + 2) * ((pi k).height + 2)

/-- `h_size` (124), cells of the shared heap array. -/
def heapSize (n w h : Nat) : Nat := h * w + 257 * n

/-- `pt_size` (98–104), cells of the shared arrays of padded patches. -/
def pointSize (hp vp w h : Nat) : Nat :=
  ((List.range hp).map fun i => ((List.range vp).map fun j => (lengths hp w i + 2) * (lengths vp h j + 2)).sum).sum

/-- A cell of `m_pinfo[patch].m_points`. -/
abbrev Cell := Nat × Nat

/-- `merge_tree_parallel_step` (553–605): the pairs of cells whose regions are connected, in order.
The advancing pointers `a_link_points += a_step` are written as products. -/
def stepCells (pi : Nat → PInfo) (indexes : List Nat) (step : Nat) (leftRight : Bool) :
    List (Cell × Cell) :=
  indexes.flatMap fun a =>
    if leftRight then
      (List.range (pi a).height).map fun i =>
        ((a, (pi a).width + ((pi a).width + 2) + i * ((pi a).width + 2)),
         (a + step, 1 + ((pi (a + step)).width + 2) + i * ((pi (a + step)).width + 2)))
    else
      (List.range (pi a).width).map fun i =>
        ((a, (pi a).height * ((pi a).width + 2) + 1 + i),
         (a + step, ((pi (a + step)).width + 2) + 1 + i))

/-- One call of `merge_tree_parallel_step`. -/
structure StepCall where
  indexes : List Nat
  step : Nat
  leftRight : Bool

/-- `merge_tree_parallel_4` (502–507). -/
def calls4 : List StepCall := [⟨[0, 2], 1, true⟩, ⟨[0, 1], 2, false⟩]

/-- One iteration of the parallel loop in `merge_tree_parallel_32` (511–537). -/
def callsQuadrant (start : Nat) : List StepCall :=
  [⟨[start, start + 8], 1, true⟩,
   ⟨[start + 2, start + 2 + 8], 1, true⟩,
   ⟨[start + 1, start + 1 + 8], 1, true⟩,
   ⟨[start, start + 1, start + 2, start + 3], 8, false⟩]

/-- `merge_tree_parallel_32` (509–551), with the four iterations of the parallel loop one after the
other (their order is irrelevant: property C13). -/
def calls32 : List StepCall :=
  callsQuadrant 0 ++ callsQuadrant 4 ++ callsQuadrant 16 ++ callsQuadrant 20 ++
    [⟨[3, 11, 19, 27], 1, true⟩, ⟨[8, 9, 10, 11, 12, 13, 14, 15], 8, false⟩]

/-- `build_tree`, 203–210: with one thread nothing is joined. -/
def callsV2 : Nat → List StepCall
  | 4 => calls4
  | 32 => calls32
  | _ => []

/-- All pairs of cells joined for a list of calls. -/
def allCells (pi : Nat → PInfo) (calls : List StepCall) : List (Cell × Cell) :=
  calls.flatMap fun c => stepCells pi c.indexes c.step c.leftRight

/-- The part of the image a patch is made from (416, `img.ptr<u8>(pinfo.m_top, pinfo.m_left, 0)`). -/
def subImage (img : Nat → Nat → Nat) (p : PInfo) (x y : Nat) : Nat := img (p.left + x) (p.top + y)

/-- Region of a cell: `&m_pinfo[k].m_mser_regions.at(*link_points - m_boundary_pixel)` (567–568,
591–592); `ms k` is the memory left by flooding patch `k`. -/
def cellRegion (ms : Nat → FloodMem.MSt) (c : Cell) : Nat × Nat :=
  (c.1, FloodMem.labelOf (ms c.1).words c.2)

/-- The trees of the patches, seen from the pixels of the whole image. -/
def patchTree (pi : Nat → PInfo) (ms : Nat → FloodMem.MSt) (k : Nat) : Connect.PatchTree (Nat × Nat) where
  nreg := (ms k).nreg
  regs := (ms k).regs
  lab := fun p => FloodMem.labelOf (ms k).words
    (Flood.idx (pi k).width (p.1 - (pi k).left) (p.2 - (pi k).top))

/-- The joining part of `build_tree` for `n` threads on a `w × h` image (203–237), after the patches
have been flooded. `fuel` and `steps` bound the loops of `connect`. -/
def mergeTrees (n hp vp w h : Nat) (ms : Nat → FloodMem.MSt) (fuel steps : Nat) :
    Option (Connect.World (Nat × Nat)) :=
  let pi := pinfo hp vp w h
  Connect.joinAll fuel steps ⟨Connect.initForest n (patchTree pi ms), 0⟩
    ((allCells pi (callsV2 n)).map fun e => (cellRegion ms e.1, cellRegion ms e.2))

/-- The part of `total` positions that position `x` lies in (not a function of the code; that it is the
right one is property C14). -/
def partOf (n total x : Nat) : Nat := if total < n then n - 1 else min (x / (total / n)) (n - 1)

/-- Patch of a pixel of a `w × h` image divided into `hp × vp` patches. -/
def patchOf (hp vp w h : Nat) (p : Nat × Nat) : Nat := partOf vp h p.2 * hp + partOf hp w p.1

/-- The whole tree after joining, as later stages see it. -/
def mergedTree (n hp vp w h : Nat) (ms : Nat → FloodMem.MSt) (fuel : Nat)
    (W : Connect.World (Nat × Nat)) : Spec.RegionTree (Nat × Nat) (Nat × Nat) :=
  let pi := pinfo hp vp w h
  Connect.forestTree fuel (fun kr => kr.1 < n ∧ kr.2 < (ms kr.1).nreg)
    (fun p => (patchOf hp vp w h p, (patchTree pi ms (patchOf hp vp w h p)).lab p)) W.F

end Verif.Partition
