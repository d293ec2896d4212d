import Verif.Model.Partition
import Verif.Model.GridV1
import Verif.Model.ConnectV1

/-!
# Model: joining the patches of an image in Fast MSER V1

Models `img_fast_mser_v1::merge_tree_parallel_{2,4,8,16,32}` (/repo/basicimg/src/img_fast_mser_v1.cpp 1586–1931),
`merge_tree_parallel_2_step_with_order` (1933–1955), `merge_tree_parallel_4_step_with_order` (1957–2018) and
`merge_tree_parallel_step` (2084–2227), with the tables `m_boundary_regions` set up by
`allocate_memory_parallel_{1,2,4,8,16,32}` (114–932).  Line numbers refer to that file.

Conventions:
* `img x y` is the source image, bytes are taken modulo 256;
* `v k` is the state in which flooding of patch `k` has ended (`Verif.V1.run`);
* a division by zero and the use of a table entry that was never written are the outcome `none`.
-/

namespace Verif.V1

open Function (update)
open Verif.Partition (PInfo pinfo pointBase StepCall)

/-! ### Which sides have a table -/

/-- `m_boundary_regions[0] != NULL` for patch `k` of `n` (157, 260, 267, 385–409, 536–538, 697–699, 861–863). -/
def hasLeft (n k : Nat) : Bool :=
  match n with
  | 2 => decide (k = 1)
  | 4 => decide (k = 1 ∨ k = 3)
  | 8 => decide (k ≠ 0 ∧ k ≠ 4)
  | 16 => decide (k % 4 ≠ 0)
  | 32 => decide (k % 8 ≠ 0)
  | _ => false

/-- `m_boundary_regions[1] != NULL` (158, 261, 269, 386–411, 546–548, 709–711, 873–875). -/
def hasRight (n k : Nat) : Bool :=
  match n with
  | 2 => decide (k = 0)
  | 4 => decide (k = 0 ∨ k = 2)
  | 8 => decide (k ≠ 3 ∧ k ≠ 7)
  | 16 => decide (k % 4 ≠ 3)
  | 32 => decide (k % 8 ≠ 7)
  | _ => false

/-- `m_boundary_regions[2] != NULL` (159, 263, 270, 388–412, 540–544, 705–707, 869–871). -/
def hasTop (n k : Nat) : Bool :=
  match n with
  | 4 => decide (k = 2 ∨ k = 3)
  | 8 => decide (3 < k)
  | 16 => decide (3 < k)
  | 32 => decide (7 < k)
  | _ => false

/-- `m_boundary_regions[3] != NULL` (160, 264, 271, 389–414, 540–541, 701–703, 865–867). -/
def hasBottom (n k : Nat) : Bool :=
  match n with
  | 4 => decide (k = 0 ∨ k = 1)
  | 8 => decide (k ≤ 3)
  | 16 => decide (k ≤ 11)
  | 32 => decide (k ≤ 23)
  | _ => false

/-- `m_boundary_regions[side] != NULL` for patch `k` of `n`. -/
def joinedV1 (n k side : Nat) : Bool :=
  match side with
  | 0 => hasLeft n k
  | 1 => hasRight n k
  | 2 => hasTop n k
  | 3 => hasBottom n k
  | _ => false

/-! ### The order of the joins of one border -/

/-- A byte of the source image. -/
def byteAt (img : Nat → Nat → Nat) (x y : Nat) : Nat := img x y % 256

/-- The sort key of row `row` at the border right of column `x` (1622–1626, 1638–1642, 1898–1901, 1914–1918,
2109–2113, 2124–2128): the smaller of the two grays, for bright regions the larger one. -/
def keyLR (img : Nat → Nat → Nat) (gm x row : Nat) : Nat :=
  if (if gm = 0 then byteAt img (x + 1) row < byteAt img x row else byteAt img x row < byteAt img (x + 1) row) then
    byteAt img (x + 1) row
  else byteAt img x row

/-- The sort key of column `col` at the border below row `y` (1655–1659, 1671–1675, 2174–2178, 2189–2193): compared
with the pixel below, but replaced by the pixel to the right. -/
def keyUD (img : Nat → Nat → Nat) (gm y col : Nat) : Nat :=
  if (if gm = 0 then byteAt img col (y + 1) < byteAt img col y else byteAt img col y < byteAt img col (y + 1)) then
    byteAt img (col + 1) y
  else byteAt img col y

/-- `++gray_number[g]` for rows (columns) 0 to `n - 1` (1621–1631, 2108–2118). -/
def grayNumber (key : Nat → Nat) : Nat → Nat → Nat
  | 0 => fun _ => 0
  | n + 1 => update (grayNumber key n) (key n) (grayNumber key n (key n) + 1)

/-- `mt_helper::integral_array` (/repo/basicmath/include/mt_helper.h 335–343). -/
def grayIntegral (num : Nat → Nat) : Nat → Nat
  | 0 => 0
  | g + 1 => grayIntegral num g + num g

/-- `order_indexes[gray_integral[g]++] = row` for rows 0 to `n - 1` (1637–1647, 2122–2132): the array and the
advanced `gray_integral`. -/
def placeAll (key : Nat → Nat) (start : Nat → Nat) : Nat → (Nat → Nat) × (Nat → Nat)
  | 0 => (fun _ => 0, start)
  | n + 1 =>
    let (order, pos) := placeAll key start n
    (update order (pos (key n)) n, update pos (key n) (pos (key n) + 1))

/-- `order_indexes[0]` … `order_indexes[n - 1]`. -/
def orderIndexes (key : Nat → Nat) (n : Nat) : List Nat :=
  (List.range n).map (placeAll key (grayIntegral (grayNumber key n)) n).1

/-! ### The joins -/

/-- An entry of a table: patch, side, place. -/
abbrev Entry := Nat × Nat × Nat

/-- One join: the entries of `a` and `b`, and `split_patch_index`. -/
abbrev Join := Entry × Entry × Nat

/-- The loop over one border (1943–1954, 1970–1989, 2002–2016, 2138–2163, 2201–2223).  `sel` is the position in
`indexes` of the patch a row (column) belongs to, `p` the extent of the first patch. -/
def borderJoins (order : List Nat) (sel : Nat → Nat) (p : Nat) (indexes : List Nat) (step sideA sideB : Nat)
    (split : Nat → Nat) : List Join :=
  order.map fun i =>
    let a := indexes.getD (sel i) 0
    ((a, sideA, i - sel i * p), (a + step, sideB, i - sel i * p), split (sel i))

/-- `merge_tree_parallel_step` (2084–2227). -/
def stepJoins (pi : Nat → PInfo) (w h : Nat) (img : Nat → Nat → Nat) (gm : Nat) (c : StepCall) : Option (List Join) :=
  let first := c.indexes.getD 0 0
  let size := c.indexes.length
  if c.leftRight then
    let p := (pi first).height
    if p = 0 then none                                                                   -- 2140
    else
      some (borderJoins (orderIndexes (keyLR img gm ((pi first).left + (pi first).width - 1)) h)
        (fun i => if size - 1 ≤ i / p then size - 1 else i / p) p c.indexes c.step 1 0 (fun v => v))
  else
    let p := (pi first).width
    if p = 0 then none                                                                   -- 2203
    else
      some (borderJoins (orderIndexes (keyUD img gm ((pi first).top + (pi first).height - 1)) w)
        (fun i => if size - 1 ≤ i / p then size - 1 else i / p) p c.indexes c.step 3 2
        (fun _ => c.indexes.getD (size - 1) 0))

/-- `merge_tree_parallel_2` (1879–1931, 1933–1955). -/
def joins2 (pi : Nat → PInfo) (h : Nat) (img : Nat → Nat → Nat) (gm : Nat) : List Join :=
  borderJoins (orderIndexes (keyLR img gm ((pi 0).width - 1)) h) (fun _ => 0) (pi 0).height [0] 1 1 0 (fun _ => 0)

/-- `merge_tree_parallel_4` (1586–1694, 1957–2018). -/
def joins4 (pi : Nat → PInfo) (w h : Nat) (img : Nat → Nat → Nat) (gm : Nat) : List Join :=
  borderJoins (orderIndexes (keyLR img gm ((pi 0).width - 1)) h) (fun i => if i < (pi 0).height then 0 else 1)
    (pi 0).height [0, 2] 1 1 0 (fun v => if v = 0 then 0 else 2) ++
  borderJoins (orderIndexes (keyUD img gm ((pi 0).height - 1)) w) (fun i => if i < (pi 0).width then 0 else 1)
    (pi 0).width [0, 1] 2 3 2 (fun _ => 1)

/-- The calls in `merge_tree_parallel_8` (1696–1731). -/
def calls8V1 : List StepCall :=
  [⟨[0, 4], 1, true⟩, ⟨[2, 6], 1, true⟩, ⟨[1, 5], 1, true⟩, ⟨[0, 1, 2, 3], 4, false⟩]

/-- The calls in `merge_tree_parallel_16` (1732–1782). -/
def calls16V1 : List StepCall :=
  [⟨[0, 4, 8, 12], 1, true⟩, ⟨[2, 6, 10, 14], 1, true⟩, ⟨[1, 5, 9, 13], 1, true⟩,
   ⟨[0, 1, 2, 3], 4, false⟩, ⟨[8, 9, 10, 11], 4, false⟩, ⟨[4, 5, 6, 7], 4, false⟩]

/-- The calls in `merge_tree_parallel_32` (1785–1877). -/
def calls32V1 : List StepCall :=
  [⟨[0, 8, 16, 24], 1, true⟩, ⟨[2, 10, 18, 26], 1, true⟩, ⟨[4, 12, 20, 28], 1, true⟩, ⟨[6, 14, 22, 30], 1, true⟩,
   ⟨[1, 9, 17, 25], 1, true⟩, ⟨[5, 13, 21, 29], 1, true⟩, ⟨[3, 11, 19, 27], 1, true⟩,
   ⟨[0, 1, 2, 3, 4, 5, 6, 7], 8, false⟩, ⟨[16, 17, 18, 19, 20, 21, 22, 23], 8, false⟩,
   ⟨[8, 9, 10, 11, 12, 13, 14, 15], 8, false⟩]

/-- The calls of `merge_tree_parallel_step` one after the other. -/
def callJoins (pi : Nat → PInfo) (w h : Nat) (img : Nat → Nat → Nat) (gm : Nat) : List StepCall → Option (List Join)
  | [] => some []
  | c :: l =>
    match stepJoins pi w h img gm c, callJoins pi w h img gm l with
    | some a, some b => some (a ++ b)
    | _, _ => none

/-- All joins for `n` threads, in order; with one thread nothing is joined. -/
def joinsV1 (n : Nat) (pi : Nat → PInfo) (w h : Nat) (img : Nat → Nat → Nat) (gm : Nat) : Option (List Join) :=
  match n with
  | 2 => some (joins2 pi h img gm)
  | 4 => some (joins4 pi w h img gm)
  | 8 => callJoins pi w h img gm calls8V1
  | 16 => callJoins pi w h img gm calls16V1
  | 32 => callJoins pi w h img gm calls32V1
  | _ => some []

/-! ### The memory -/

/-- Regions and points after all patches have been flooded.  Patch `k` has written the points from `pointBase pi k`
on, one per pixel; `pts` is what the array contained before. -/
def memV1 (n : Nat) (pi : Nat → PInfo) (v : Nat → St) (pts : Nat → Point) : Mem (Nat × Nat) where
  regs := fun kr =>
    if kr.1 < n ∧ kr.2 < (v kr.1).nreg then
      let r := (v kr.1).regs kr.2
      { gray := r.gray, parent := r.parent.map (fun q => (kr.1, q)), merged := false, patch := kr.1
        size := r.size, unmerged := r.unmerged, head := r.head.getD 0, tail := r.tail.getD 0, rect := r.rect }
    else { gray := 0, parent := none, merged := false, patch := 0, size := 0, unmerged := 0, head := 0, tail := 0
           rect := noRect }
  pts := fun p =>
    match (List.range n).find? (fun k =>
        decide (pointBase pi k ≤ p) && decide (p < pointBase pi k + (pi k).width * (pi k).height)) with
    | some k => (v k).pts p
    | none => pts p
  mp := []
  merges := 0

/-- The region in an entry of a table. -/
def entryRegion (v : Nat → St) (e : Entry) : Option (Nat × Nat) := ((v e.1).border e.2.1 e.2.2).map (fun r => (e.1, r))

/-- The regions of all joins. -/
def resolve (v : Nat → St) : List Join → Option (List ((Nat × Nat) × (Nat × Nat) × Nat))
  | [] => some []
  | (a, b, s) :: l =>
    match entryRegion v a, entryRegion v b, resolve v l with
    | some ra, some rb, some l => some ((ra, rb, s) :: l)
    | _, _, _ => none

/-- Joining all patches of a `w × h` image divided into `hp × vp` patches for `n` threads (`build_tree`, 934–1015).
`fuel` and `steps` bound the loops of `connect`. -/
def mergeTreesV1 (n hp vp w h : Nat) (img : Nat → Nat → Nat) (gm : Nat) (v : Nat → St) (pts : Nat → Point)
    (fuel steps : Nat) : Option (Mem (Nat × Nat)) :=
  match joinsV1 n (pinfo hp vp w h) w h img gm with
  | none => none
  | some l =>
    match resolve v l with
    | none => none
    | some l => joinAll fuel steps (memV1 n (pinfo hp vp w h) v pts) l

end Verif.V1
