import Verif.Model.Rect

/-!
# Model: connected component extraction (/repo/basicimg/include/img_connected_component.h)

`ture_normal_extract` 299–303 (macros 5–55) with `normal_extract_start` 364–598 and `normal_extract_stop` 600–626, for
images of `u8` with `ch` channels (`T` is `sys_array_type<u8, ch>`, `image_pixel_type` has `1 + ch` bytes, the flag
first). Pointers are byte addresses into the temporary image, whose bytes are `none` as long as nothing was written.
Reading such a byte, an access outside an array and endless loops are the outcome `none`. The steps are those of
`mt_mat::create` (mt_mat.cpp 1275–1315): rows without gaps. `i32` overflow of sizes is not modelled.
-/

namespace Verif.Components

open Verif.Rectangle

/-- How two defects are treated. -/
structure Mode where
  /-- `ptr<T>(a, b)` is row `a` and *column* `b`, as the assertions of img_connected_component.h 201, 514, 551, 559, 560
  say. By mt_mat.h 406–409 it is row `a` and *channel* `b`. -/
  column : Bool
  /-- `m_cache_point_index` (323) starts at 0. Nothing in the code sets it. -/
  index : Bool
  deriving DecidableEq

/-- The code as it is. -/
def Mode.asWritten : Mode := ⟨false, false⟩

/-- With both defects repaired. -/
def Mode.repaired : Mode := ⟨true, true⟩

/-- `img_mask_info` 147–178. `image` has the bytes of the mask. -/
inductive Mask
  | null
  | rect (r : Rect)
  | value (v : Nat → Nat)
  | image (m : Int → Nat)

/-- The source image: sides, channels and bytes. -/
structure Img where
  W : Nat
  H : Nat
  ch : Nat
  src : Int → Nat

/-- A byte of the source image. -/
def Img.byte (I : Img) (a : Int) : Option Nat := if 0 ≤ a ∧ a < (I.H * I.W * I.ch : Nat) then some (I.src a) else none

/-- The `ch` bytes of an element at byte address `a`. -/
def Img.elem (I : Img) (a : Int) : Option (Nat → Nat) :=
  if 0 ≤ a ∧ a + I.ch ≤ (I.H * I.W * I.ch : Nat) then some (fun j => I.src (a + j)) else none

/-- `sys_array_type::operator!=`, sys_array_type.h 21–39. -/
def differs (ch : Nat) (x y : Nat → Nat) : Bool := (List.range ch).any fun j => x j ≠ y j

/-- `rowMax`, `colMax`, `rowMin`, `colMin` of 427–430 and 504–507. -/
structure Bounds where
  rowMax : Int
  colMax : Int
  rowMin : Int
  colMin : Int

/-- One pixel of the loops 435–447 and 511–525. -/
def Bounds.see (b : Bounds) (row col : Int) (keep : Bool) : Bounds :=
  if keep then ⟨max b.rowMax row, max b.colMax col, min b.rowMin row, min b.colMin col⟩ else b

/-- A row of those loops: `k` further pixels from `col` on; `keep a` tells whether the element at address `a` counts. -/
def boundsCols (keep : Int → Option Bool) (sz row : Int) : Nat → Int → Int → Bounds → Option (Int × Bounds)
  | 0, _, a, b => some (a, b)
  | k + 1, col, a, b => (keep a).bind fun x => boundsCols keep sz row k (col + 1) (a + sz) (b.see row col x)

/-- All rows. -/
def boundsRows (keep : Int → Option Bool) (sz : Int) (W : Nat) : Nat → Int → Int → Bounds → Option Bounds
  | 0, _, _, b => some b
  | k + 1, row, a, b => (boundsCols keep sz row W 0 a b).bind fun r => boundsRows keep sz W k (row + 1) r.1 r.2

/-- The temporary image: number of bytes allocated (`malloc` of a negative number gives nothing) and what they contain. -/
structure Tmp where
  cap : Int
  mem : Int → Option Nat

/-- Writing a byte. -/
def Tmp.write (t : Tmp) (a : Int) (x : Nat) : Option Tmp :=
  if 0 ≤ a ∧ a < t.cap then some { t with mem := fun b => if b = a then some x else t.mem b } else none

/-- Reading a byte. -/
def Tmp.read (t : Tmp) (a : Int) : Option Nat := if 0 ≤ a ∧ a < t.cap then t.mem a else none

/-- Writing the bytes of an element: `data->m_image_value = *rawData`. -/
def Tmp.writeElem (t : Tmp) (a : Int) (x : Nat → Nat) : Nat → Nat → Option Tmp
  | 0, _ => some t
  | k + 1, j => (t.write (a + j) (x j)).bind fun t' => t'.writeElem a x k (j + 1)

/-- The loops that flag a row of the border, 394–397, 418–421, 465–468, 543–546, 581–586. -/
def flagRow (s : Int) : Nat → Int → Tmp → Option (Int × Tmp)
  | 0, a, t => some (a, t)
  | k + 1, a, t => (t.write a 1).bind fun t' => flagRow s k (a + s) t'

/-- The inner loops 406–410, 477–493 and 557–572: `k` further pixels; `a` is `data`, `raw` is `rawData`, `keep raw` tells
whether the pixel counts. Also counts the `area`. -/
def fillCols (I : Img) (keep : Int → Option Bool) : Nat → Int → Int → Nat → Tmp → Option (Int × Int × Nat × Tmp)
  | 0, a, raw, n, t => some (a, raw, n, t)
  | k + 1, a, raw, n, t =>
    (keep raw).bind fun x =>
      if x then
        (t.write a 0).bind fun t1 => (I.elem raw).bind fun v => (t1.writeElem (a + 1) v I.ch 0).bind fun t2 =>
          fillCols I keep k (a + (1 + I.ch : Nat)) (raw + I.ch) (n + 1) t2
      else (t.write a 1).bind fun t1 => fillCols I keep k (a + (1 + I.ch : Nat)) (raw + I.ch) n t1

/-- The outer loops 401–416, 472–500 and 550–579. -/
def fillRows (I : Img) (keep : Int → Option Bool) (w : Nat) : Nat → Int → Int → Nat → Tmp → Option (Int × Nat × Tmp)
  | 0, a, _, n, t => some (a, n, t)
  | k + 1, a, raw, n, t =>
    (t.write a 1).bind fun t1 => (fillCols I keep w (a + (1 + I.ch : Nat)) raw n t1).bind fun r =>
      (r.2.2.2.write r.1 1).bind fun t3 =>
        fillRows I keep w k (r.1 + (1 + I.ch : Nat)) (r.2.1 + ((I.W : Int) - w) * I.ch) r.2.2.1 t3

/-- What `normal_extract_start` leaves: active rectangle, temporary image and `area`. -/
structure Start where
  rect : Rect
  tmp : Tmp
  area : Nat

/-- Address of `src.ptr<T>(row, col)`. -/
def Img.ptr (I : Img) (m : Mode) (row col : Int) : Int :=
  row * (I.W * I.ch : Nat) + if m.column then col * I.ch else col

/-- Allocation and filling, common to the three branches: 385–421, 452–500 and 530–586. `bottom`: the last row is
flagged. -/
def fill (I : Img) (m : Mode) (keep : Int → Option Bool) (r : Rect) (bottom : Bool) : Option (Nat × Tmp) :=
  (flagRow (1 + I.ch : Nat) (r.width + 2).toNat 0
    ⟨(r.height + 2) * (1 + I.ch : Nat) * ((r.width + 2) * (1 + I.ch : Nat)), fun _ => none⟩).bind fun p =>
  (fillRows I keep r.width.toNat r.height.toNat p.1 (I.ptr m r.top r.left) 0 p.2).bind fun q =>
  if bottom then (flagRow (1 + I.ch : Nat) (r.width + 2).toNat q.1 q.2.2).bind fun e => some (q.2.1, e.2)
  else some (q.2.1, q.2.2)

/-- The active rectangle from the bounds, 449–450 and 527–528. -/
def Bounds.rect (b : Bounds) : Rect := ⟨b.colMin, b.rowMin, b.colMax - b.colMin + 1, b.rowMax - b.rowMin + 1⟩

/-- `normal_extract_start` 364–598. In the branch for a mask image, `maskData` moves along with `rawData`: the mask has
the sides of the image, and one byte per pixel as the image (`ch` is 1). -/
def start (m : Mode) (I : Img) (mask : Mask) : Option Start :=
  match mask with
  | .null =>
    let r : Rect := ⟨0, 0, I.W, I.H⟩
    (fill I m (fun _ => some true) r true).bind fun q => some ⟨r, q.2, (r.width * r.height).toNat⟩
  | .rect r => (fill I m (fun _ => some true) r true).bind fun q => some ⟨r, q.2, (r.width * r.height).toNat⟩
  | .value v =>
    let keep : Int → Option Bool := fun a => (I.elem a).map fun x => differs I.ch x v
    (boundsRows keep I.ch I.W I.H 0 0 ⟨0, 0, I.H, I.W⟩).bind fun b =>
      (fill I m keep b.rect true).bind fun q => some ⟨b.rect, q.2, q.1⟩
  | .image k =>
    let keep : Int → Option Bool := fun a => if 0 ≤ a ∧ a < (I.H * I.W : Nat) then some (decide (k a = 1)) else none
    (boundsRows keep 1 I.W I.H 0 0 ⟨0, 0, I.H, I.W⟩).bind fun b =>
      (fill I m keep b.rect false).bind fun q => some ⟨b.rect, q.2, q.1⟩

/-- `img_DX_3_9`, `img_DY_3_9`, `img_DX_3_5`, `img_DY_3_5`, img_types.h 7–10, without the first entry. -/
def directions (eight : Bool) : List (Int × Int) :=
  if eight then [(1, 0), (1, -1), (0, -1), (-1, -1), (-1, 0), (-1, 1), (0, 1), (1, 1)]
  else [(1, 0), (0, -1), (-1, 0), (0, 1)]

/-- `m_neibour_pixel_offsets`, 590–592 and img_img.h 68–70, in elements. -/
def offsets (s : Nat) (w : Int) (eight : Bool) : List Int :=
  (directions eight).map fun d => d.1 + (d.2 * ((w + 2) * s)).tdiv s

/-- The members of `normal_connected_info` that change: flags, stack (top first), points and regions. -/
structure St where
  tmp : Tmp
  stack : List Int
  pts : List (Int × Int)
  regs : List (Nat × Nat)

/-- The fixed part: element size, active rectangle, `area`, `start_image_data` and whether the point index is initialised. -/
structure Env where
  s : Nat
  rect : Rect
  area : Nat
  origin : Int
  index : Bool

/-- The point of an address, 41–44. -/
def Env.point (E : Env) (a : Int) : Int × Int :=
  let offset := (a - E.origin).tdiv E.s
  let oy := offset.tdiv (E.rect.width + 2)
  let ox := offset - oy * (E.rect.width + 2)
  (ox + E.rect.left, oy + E.rect.top)

/-- The loop over the neighbours, 30–46, with `connect_condition` true. -/
def tour (E : Env) (top : Int) : List Int → St → Option St
  | [], S => some S
  | d :: ds, S =>
    let a := top + d * E.s
    (S.tmp.read a).bind fun f =>
      if f = 1 then tour E top ds S
      else if S.stack.length < E.area ∧ S.pts.length < E.area then
        (S.tmp.write a 1).bind fun t =>
          tour E top ds { S with tmp := t, stack := a :: S.stack, pts := S.pts ++ [E.point a] }
      else none

/-- The `while` loop 28–47. -/
def grow (E : Env) (offs : List Int) : Nat → St → Option St
  | 0, _ => none
  | n + 1, S =>
    match S.stack with
    | [] => some S
    | top :: rest => (tour E top offs { S with stack := rest }).bind (grow E offs n)

/-- Replaces the last region. -/
def setBack (l : List (Nat × Nat)) (x : Nat × Nat) : List (Nat × Nat) := l.dropLast ++ [x]

/-- One pixel of the scan, 20–50; `row` and `col` count from 1. -/
def visit (E : Env) (offs : List Int) (row col a : Int) (S : St) : Option St :=
  (S.tmp.read a).bind fun f =>
    if f = 0 then
      if E.index ∧ S.pts.length < E.area ∧ S.stack.length < E.area then
        (S.tmp.write a 1).bind fun t =>
          (grow E offs (E.area + 2) { S with
            tmp := t, stack := a :: S.stack, pts := S.pts ++ [(col - 1 + E.rect.left, row - 1 + E.rect.top)] }).bind
            fun S' => some { S' with regs := setBack S'.regs (S.pts.length, S'.pts.length) ++ [(0, 0)] }
      else none
    else some S

/-- The columns, 19–52. -/
def scanCols (E : Env) (offs : List Int) (row : Int) : Nat → Int → Int → St → Option (Int × St)
  | 0, _, a, S => some (a, S)
  | k + 1, col, a, S => (visit E offs row col a S).bind fun S' => scanCols E offs row k (col + 1) (a + E.s) S'

/-- The rows, 18–54; `m_row_step` (594) is 2. -/
def scanRows (E : Env) (offs : List Int) (w : Nat) : Nat → Int → Int → St → Option St
  | 0, _, _, S => some S
  | k + 1, row, a, S => (scanCols E offs row w 1 a S).bind fun r => scanRows E offs w k (row + 1) (r.1 + 2 * E.s) r.2

/-- `normal_extract_stop` 600–626: the points of the regions and their rectangles. -/
def finish (S : St) : List (List (Int × Int) × Rect) :=
  let regs := match S.regs.getLast? with
    | some x => if x.1 = x.2 then S.regs.dropLast else S.regs
    | none => S.regs
  regs.map fun g =>
    let ps := (S.pts.drop g.1).take (g.2 - g.1)
    (ps, ps.foldl Rect.appendPoint ⟨0, 0, 0, 0⟩)

/-- `start_image_data`, the address of `ptr<image_pixel_type>(1, 1)`; the temporary image has one channel of one byte. -/
def origin (m : Mode) (s : Nat) (w : Int) : Int :=
  (w + 2) * s + if m.column then (s : Int) else 1

/-- `ture_normal_extract` 299–303. -/
def extract (m : Mode) (I : Img) (mask : Mask) (eight : Bool) : Option (List (List (Int × Int) × Rect)) :=
  (start m I mask).bind fun B =>
    let E : Env := ⟨1 + I.ch, B.rect, B.area, origin m (1 + I.ch) B.rect.width, m.index⟩
    (scanRows E (offsets E.s B.rect.width eight) B.rect.width.toNat B.rect.height.toNat 1 E.origin
      ⟨B.tmp, [], [], [(0, 0)]⟩).bind fun S => some (finish S)

end Verif.Components
