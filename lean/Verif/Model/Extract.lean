import Verif.Model.Recognize
import Verif.Model.Partition

/-!
# Model: extracting the pixels of the reported regions

`extract_pixel` (/repo/basicimg/src/img_fast_mser_v2.cpp 1335–1342) calls
`extract_pixel_parallel_4_acceleration` (1643–2051) for every thread number. It allocates one array
of points per polarity (`msers.m_memory`), writes into it, for every reported region, a header of
four index ranges, the pixels that belong to no smaller reported region, and either copies of the
pixels of the smaller regions (`Memory_Type_Share_Parallel_4`) or the relative positions of their
records (`Memory_Type_Recursive_Parallel_4`). `image_from_mser` and `visit_pixel_test`
(/repo/basicimg/src/img_mser_helper.cpp 67–118, 210–257) read it back.

The model keeps the memory as cells of one `i32`: point number `a` has its `m_x` in cell `2a` and
its `m_y` in cell `2a+1` (`mt_point` is a pair of `i32`). A cell holds `none` until it is written.
Every access outside of the allocated array, every read of a cell that was never written, and every
other access outside of an array is the outcome `none` of the whole function.

Simplifications:
* A region pointer is the pair of its patch and its position in the block memory of the patch.
* `i32` arithmetic is exact (the quantities are bounded by the number of cells of the array).
* The two `omp parallel for` loops (1771, 1905) are run one thread after the other; thread `k`
  touches only patch `k`, the block table number `k`, and points of block `k`.
* `region_heap` (1651–1658) is a table per patch; that the rows lie one behind the other within
  `m_heap`, and the block tables behind them or in a fresh array (1660–1668), is not modelled.
-/

namespace Verif.Extract

open Verif.Recog (Flag)

/-- A `mser_region*`: patch number and position in the patch's block memory. -/
abbrev Reg := Nat × Nat

/-- The fields of a `mser_region` which extraction uses (img_fast_mser_v2.h 31–56). `pix` is the
union of `m_size` and `m_child_pixel_size`, `index` the union of `m_er_index` and `m_mser_index`,
`kids` is `m_child_memory_number` (in a union with the variation). `m_patch_index` is the first
component of the pointer. -/
structure XNode where
  parent : Option Reg
  flag : Flag
  gray : Nat
  pix : Nat
  kids : Nat
  index : Nat
  assigned : Bool

/-- The region objects of all patches. -/
abbrev XForest := Reg → XNode

/-- The region objects as recognition leaves them: `R` holds the fields recognition works on,
`m_er_index` was set to the position of the object when it was made (img_fast_mser_v2.cpp 259, 298),
`m_assigned_pointer` to 0 (484, 497). `junk` is what the union of the variation and
`m_child_memory_number` contains. -/
def ofRecognized (R : Recog.RForest Reg) (junk : Reg → Nat) : XForest := fun r =>
  { parent := (R r).parent, flag := (R r).flag, gray := (R r).gray, pix := (R r).size,
    kids := junk r, index := r.2, assigned := false }

/-- `m_memory_type` of a record (img_mser_base.h). `self` is what the constructor sets. -/
inductive MemType
  | self | share4 | recursive4
  deriving DecidableEq

/-- `mt_rect` (/repo/basicmath/include/mt_rect_t.h). -/
structure Rect where
  left : Int
  top : Int
  width : Int
  height : Int
  deriving DecidableEq

/-- The default rectangle (mt_rect_t.h, constructor without arguments). -/
def Rect.zero : Rect := ⟨0, 0, 0, 0⟩

/-- `adjust_by_append_rect` (mt_rect_t.h 351–365); `right()` is `left + width - 1`, `bottom()`
is `top + height - 1`, `empty()` holds if both extents are 0. -/
def Rect.append (a b : Rect) : Rect :=
  if a.width = 0 ∧ a.height = 0 then b
  else
    let minX := min a.left b.left
    let minY := min a.top b.top
    let maxX := max (a.left + a.width - 1) (b.left + b.width - 1)
    let maxY := max (a.top + a.height - 1) (b.top + b.height - 1)
    ⟨minX, minY, maxX - minX + 1, maxY - minY + 1⟩

/-- A record `img_mser`; `points` is `m_points - memory`. -/
structure Mser where
  size : Nat
  gray : Nat
  mtype : MemType
  points : Int
  rect : Rect

/-- A record as `t_msers.resize` makes it. -/
def Mser.fresh : Mser := ⟨0, 0, .self, 0, Rect.zero⟩

/-- What the machine knows about the patches: their number (`m_pinfo.size()`), the numbers of
region objects, and the geometry. -/
structure Env where
  n : Nat
  nreg : Nat → Nat
  pi : Nat → Partition.PInfo

/-! ### Preparing the records (1685–1695) -/

/-- State of the first two loops. -/
structure PrepSt where
  X : XForest
  ms : Nat → Mser
  heap : Reg → Option Int
  memSize : Int

/-- One turn of the loop 1685–1695. -/
def markOne (E : Env) (gm : Nat) (s : PrepSt) (ri : Reg × Nat) : Option PrepSt :=
  let r := ri.1
  let i := ri.2
  let x := s.X r
  if r.1 < E.n ∧ x.index < E.nreg r.1 then
    some { s with
      X := Function.update s.X r { x with pix := 0, kids := 0 }
      ms := Function.update s.ms i { s.ms i with size := x.pix, gray := x.gray ^^^ gm }
      heap := Function.update s.heap (r.1, x.index) (some (i : Int)) }
  else none

/-! ### Memory type, nearest reported ancestor (1697–1731) -/

/-- The loop without a body 1709–1710: the nearest reported region on the way up from `o`. -/
def climbValid (X : XForest) : Nat → Option Reg → Option (Option Reg)
  | _, none => some none
  | 0, some _ => none
  | f + 1, some r => if (X r).flag = .valid then some (some r) else climbValid X f (X r).parent

/-- The loop 1721–1726: every region on the way from `o` to `real` gets `real` as parent. -/
def compress (real : Option Reg) : Nat → XForest → Option Reg → Option XForest
  | _, X, none => some X
  | 0, _, some _ => none
  | f + 1, X, some r =>
    if some r = real then some X
    else compress real f (Function.update X r { X r with parent := real }) (X r).parent

/-- The reported parent counts its child (1714–1717). -/
def countChild (X : XForest) (size : Nat) : Option Reg → XForest
  | none => X
  | some q => Function.update X q { X q with kids := (X q).kids + 1, pix := (X q).pix + size }

/-- One turn of the loop 1697–1731. -/
def typeOne (thr : Int) (fuel : Nat) (s : PrepSt) (ri : Reg × Nat) : Option PrepSt :=
  let r := ri.1
  let i := ri.2
  let x := s.X r
  let m := s.ms i
  let shared := x.kids = 0 ∨ (m.size : Int) ≤ thr
  let ms := Function.update s.ms i { m with mtype := if shared then .share4 else .recursive4 }
  let memSize := s.memSize +
    (if shared then 4 + (m.size : Int)
     else 4 + (m.size : Int) - (x.pix : Int) + (2 + (x.kids : Int)) / 2)
  match climbValid s.X fuel x.parent with
  | none => none
  | some real =>
    let X1 := countChild s.X m.size real
    let X2 := Function.update X1 r { X1 r with parent := real }
    match compress real fuel X2 x.parent with
    | none => none
    | some X3 => some { s with X := X3, ms := ms, memSize := memSize }

/-! ### Assigning every region object to a record (1733–1764) -/

/-- The loop without a body 1746–1747: up from `o` to the first reported or assigned region. -/
def climbAssigned (X : XForest) : Nat → Option Reg → Option (Option Reg)
  | _, none => some none
  | 0, some _ => none
  | f + 1, some r =>
    if (X r).flag = .valid ∨ (X r).assigned = true then some (some r)
    else climbAssigned X f (X r).parent

/-- The loop 1755–1758. -/
def assignPath (E : Env) (real : Option Reg) (v : Int) :
    Nat → XForest × (Reg → Option Int) → Option Reg → Option (XForest × (Reg → Option Int))
  | _, s, none => some s
  | 0, _, some _ => none
  | f + 1, s, some r =>
    if some r = real then some s
    else if r.1 < E.n ∧ (s.1 r).index < E.nreg r.1 then
      assignPath E real v f
        (Function.update s.1 r { s.1 r with assigned := true },
          Function.update s.2 (r.1, (s.1 r).index) (some v)) (s.1 r).parent
    else none

/-- One turn of the loop 1733–1764. -/
def assignOne (E : Env) (fuel : Nat) (s : XForest × (Reg → Option Int)) (r : Reg) :
    Option (XForest × (Reg → Option Int)) :=
  if (s.1 r).flag = .valid then some s
  else if (s.1 r).assigned = true then some s
  else
    match climbAssigned s.1 fuel (s.1 r).parent with
    | none => none
    | some none => assignPath E none (-1) fuel s (some r)
    | some (some q) =>
      match s.2 (q.1, (s.1 q).index) with
      | none => none
      | some v => assignPath E (some q) v fuel s (some r)

/-- All region objects, patch by patch in the order of the block memory (1733–1738). -/
def allRegs (E : Env) : List Reg :=
  (List.range E.n).flatMap fun k => (List.range (E.nreg k)).map fun e => (k, e)

/-! ### Counting the pixels of every record in every block (1771–1810) -/

/-- Pixels of a `w × h` patch in the order of the loops (row, column). -/
def scan (w h : Nat) : List (Nat × Nat) :=
  (List.range h).flatMap fun row => (List.range w).map fun col => (row, col)

/-- State of the counting loop of one thread: the link words `*link_points` (as `i32`), the counters
`block_self_pixel_size`, and `cur_memory_size`. -/
structure CountSt where
  link : Nat → Int
  cnt : Nat → Int
  total : Int

/-- One turn of the inner loop 1785–1799 for the pixel `rc`, in patch `k`; `label` is
`*link_points - m_boundary_pixel`. -/
def countOne (E : Env) (N : Nat) (heap : Reg → Option Int) (k : Nat) (label : Nat → Nat)
    (s : CountSt) (rc : Nat × Nat) : Option CountSt :=
  let c := Flood.idx (E.pi k).width rc.2 rc.1
  if label c < E.nreg k then
    match heap (k, label c) with
    | none => none
    | some v =>
      let link := Function.update s.link c v
      if v = -1 then some { s with link := link }
      else if 0 ≤ v ∧ v < N then
        some { link := link, cnt := Function.update s.cnt v.toNat (s.cnt v.toNat + 1),
               total := s.total + 1 }
      else none
  else none

/-- What thread `k` computes in 1771–1810 (the block tables were cleared in 1670). -/
def countPatch (E : Env) (N : Nat) (heap : Reg → Option Int) (label : Nat → Nat → Nat) (k : Nat) :
    Option CountSt :=
  if k < E.n then
    (scan (E.pi k).width (E.pi k).height).foldlM (countOne E N heap k (label k))
      ⟨fun c => (label k c : Int), fun _ => 0, 0⟩
  else none

/-! ### Memory -/

/-- The array `memory`: cells of one `i32`. -/
abbrev Mem := Int → Option Int

/-- A write to cell `a`; the array has `size` points. -/
def wr (size : Int) (m : Mem) (a v : Int) : Option Mem :=
  if 0 ≤ a ∧ a < 2 * size then some (Function.update m a (some v)) else none

/-- A read of cell `a`. -/
def rd (size : Int) (m : Mem) (a : Int) : Option Int :=
  if 0 ≤ a ∧ a < 2 * size then m a else none

/-- Some writes in a row. -/
def wrs (size : Int) (m : Mem) : List (Int × Int) → Option Mem
  | [] => some m
  | (a, v) :: l => (wr size m a v).bind fun m' => wrs size m' l

/-! ### Headers (1847–1903) -/

/-- `left`, `top`, `right`, `bottom` of a `mser_block_info`; `none` while `left` is −1. -/
abbrev Box := Option (Int × Int × Int × Int)

/-- State of the loop 1847–1903: region objects, records, memory, `block_memory_start_indexes`, and
`block_self_pixel_size` of block `k` and record `i`. -/
structure HeadSt where
  X : XForest
  ms : Nat → Mser
  mem : Mem
  start : Nat → Int
  cnt : Nat → Nat → Int

/-- One turn of the loop 1847–1903. -/
def headOne (size : Int) (s : HeadSt) (ri : Reg × Nat) : Option HeadSt :=
  let r := ri.1
  let i := ri.2
  let x := s.X r
  let m := s.ms i
  let p := s.start 0
  let c := fun k => s.cnt k i
  let b := s.start
  let X' := Function.update s.X r { x with index := i }
  let ms' := Function.update s.ms i { m with points := p, gray := x.gray }
  if m.mtype = .share4 then
    let x0 := p + 4
    (wrs size s.mem
      [(2 * p, x0), (2 * (p + 1), b 1), (2 * (p + 2), b 2), (2 * (p + 3), b 3),
       (2 * p + 1, x0 + c 0),
       (2 * (p + 1) + 1, b 1 + c 1), (2 * (p + 2) + 1, b 2 + c 2), (2 * (p + 3) + 1, b 3 + c 3)]).bind
      fun mem' => some
        { X := X', ms := ms', mem := mem'
          start := fun k => if k = 0 then x0 + ((x.pix : Int) + c 0) else b k + c k
          cnt := fun k j => if j = i then (if k = 0 then x0 else b k) else s.cnt k j }
  else
    let x0 := p + (4 + (2 + (x.kids : Int)) / 2)
    (wrs size s.mem
      [(2 * (p + 4), 0),
       (2 * p, x0), (2 * (p + 1), b 1), (2 * (p + 2), b 2), (2 * (p + 3), b 3),
       (2 * p + 1, x0 + c 0),
       (2 * (p + 1) + 1, b 1 + c 1), (2 * (p + 2) + 1, b 2 + c 2), (2 * (p + 3) + 1, b 3 + c 3)]).bind
      fun mem' => some
        { X := X', ms := ms', mem := mem'
          start := fun k => if k = 0 then x0 + c 0 else b k + c k
          cnt := fun k j => if j = i then (if k = 0 then x0 else b k) else s.cnt k j }

/-! ### Writing the pixels (1905–1960) -/

/-- Conversion to `i16` (the rectangle of a block is stored in `i16`). -/
def toI16 (x : Int) : Int := (x + 32768) % 65536 - 32768

/-- The `left`, `top`, `right`, `bottom` of a block after the point `(x, y)` (1933–1951). `left = −1`
marks the rectangle as unset. -/
def growBox (b : Int × Int × Int × Int) (x y : Int) : Int × Int × Int × Int :=
  let (l, t, r, bo) := b
  if l = -1 then (toI16 x, toI16 y, toI16 x, toI16 y)
  else
    let l' := if x < l then toI16 x else l
    let r' := if x < l then r else if x > r then toI16 x else r
    let t' := if y < t then toI16 y else t
    let bo' := if y < t then bo else if y > bo then toI16 y else bo
    (l', t', r', bo')

/-- State of the loop 1905–1960 of one thread: memory, `block_self_pixel_size` (now the position of
the next point) and rectangle of every record in this block. -/
structure FillSt where
  mem : Mem
  pos : Nat → Int
  box : Nat → Int × Int × Int × Int

/-- One turn of the inner loop 1922–1956. -/
def fillOne (E : Env) (size : Int) (N : Nat) (k : Nat) (link : Nat → Int) (s : FillSt)
    (rc : Nat × Nat) : Option FillSt :=
  let v := link (Flood.idx (E.pi k).width rc.2 rc.1)
  if v = -1 then some s
  else if 0 ≤ v ∧ v < N then
    let j := v.toNat
    let x : Int := (rc.2 : Int) + (E.pi k).left
    let y : Int := (rc.1 : Int) + (E.pi k).top
    (wrs size s.mem [(2 * s.pos j, x), (2 * s.pos j + 1, y)]).bind fun mem' => some
      { mem := mem', pos := Function.update s.pos j (s.pos j + 1)
        box := Function.update s.box j (growBox (s.box j) x y) }
  else none

/-- What thread `k` does in 1905–1960. `left` was set to −1 in 1883–1886; `top`, `right` and `bottom`
still hold what the counting loop left there, `junk`. -/
def fillPatch (E : Env) (size : Int) (N : Nat) (link : Nat → Nat → Int) (pos : Nat → Nat → Int)
    (mem : Mem) (k : Nat) (junk : Int × Int × Int) : Option FillSt :=
  if k < E.n then
    (scan (E.pi k).width (E.pi k).height).foldlM (fillOne E size N k (link k))
      ⟨mem, pos k, fun _ => (-1, junk.1, junk.2.1, junk.2.2)⟩
  else none

/-! ### Collecting (1962–2050) -/

/-- The rectangle of the own pixels of a record from those of the four blocks (1979–2004). -/
def joinBox (a b : Int × Int × Int × Int) : Int × Int × Int × Int :=
  let (l, t, r, bo) := a
  let (l2, t2, r2, bo2) := b
  if l2 = -1 then a
  else if l = -1 then b
  else
    let l' := if l2 < l then l2 else l
    let r' := if l2 < l then r else if r2 > r then r2 else r
    let t' := if t2 < t then t2 else t
    let bo' := if t2 < t then bo else if bo2 > bo then bo2 else bo
    (l', t', r', bo')

/-- State of the loop 1967–2050. -/
structure JoinSt where
  ms : Nat → Mser
  mem : Mem

/-- `memcpy` of `len` points from point `src` to point `dst` (2016), cell by cell. -/
def copyCells (size : Int) (dst src : Int) : Nat → Mem → Option Mem
  | 0, m => some m
  | t + 1, m => (copyCells size dst src t m).bind fun m' =>
      (rd size m' (src + t)).bind fun v => wr size m' (dst + t) v

/-- The body of the loop over the blocks 2011–2021. `memcpy` needs areas that do not overlap. -/
def copySeg (size : Int) (pc pp : Int) (m : Mem) (k : Nat) : Option Mem :=
  (rd size m (2 * (pc + k) + 1)).bind fun y =>
  (rd size m (2 * (pc + k))).bind fun x =>
  if 0 < y - x then
    (rd size m (2 * pp + 1)).bind fun d =>
    if d + (y - x) ≤ x ∨ y ≤ d then
      (copyCells size (2 * d) (2 * x) (2 * (y - x)).toNat m).bind fun m' =>
        wr size m' (2 * pp + 1) (d + (y - x))
    else none
  else some m

/-- `child_indexes[++child_indexes[0]] = &cur_mser - parent_mser` (2024–2025, 2030–2031). -/
def addChild (size : Int) (pp : Int) (d : Int) (m : Mem) : Option Mem :=
  (rd size m (2 * (pp + 4))).bind fun c =>
  (wr size m (2 * (pp + 4)) (c + 1)).bind fun m' => wr size m' (2 * (pp + 4) + (c + 1)) d

/-- `m_points[k].m_x -= memory_offset`, `m_points[k].m_y -= memory_offset` for four `k`
(2040–2047). -/
def relative (size : Int) (p : Int) : List Nat → Mem → Option Mem
  | [], m => some m
  | a :: l, m => (rd size m (2 * p + a)).bind fun v =>
      (wr size m (2 * p + a) (v - p)).bind fun m' => relative size p l m'

/-- The record of the reported parent (1971–1976). -/
def parentRecord (X : XForest) (r : Reg) : Option Nat :=
  match (X r).parent with
  | none => none
  | some q => if (X q).flag = .valid then some (X q).index else none

/-- One turn of the loop 1967–2050. `box` are the rectangles of the blocks. If no block has a pixel
of the record, `right`, `top` and `bottom` are stale or uninitialised: outcome `none`. -/
def joinOne (size : Int) (N : Nat) (X : XForest) (box : Nat → Nat → Int × Int × Int × Int)
    (s : JoinSt) (ri : Reg × Nat) : Option JoinSt :=
  let r := ri.1
  let i := ri.2
  let cur := s.ms i
  let bx := [0, 1, 2, 3].foldl (fun a k => joinBox a (box k i)) (-1, 0, 0, 0)
  if bx.1 = -1 then none
  else
    let temp : Rect := ⟨bx.1, bx.2.1, bx.2.2.1 - bx.1 + 1, bx.2.2.2 - bx.2.1 + 1⟩
    let rect := cur.rect.append temp
    let ms1 := Function.update s.ms i { cur with rect := rect }
    match parentRecord X r with
    | none =>
      (relative size cur.points [0, 1, 2, 3, 4, 5, 6, 7] s.mem).bind fun mem' =>
        some ⟨ms1, mem'⟩
    | some p =>
      if p < N then
        let par := s.ms p
        let copied :=
          if cur.mtype = .share4 then
            if par.mtype = .share4 then
              [0, 1, 2, 3].foldlM (copySeg size cur.points par.points) s.mem
            else addChild size par.points ((i : Int) - p) s.mem
          else addChild size par.points ((i : Int) - p) s.mem
        copied.bind fun mem1 =>
          (relative size cur.points [0, 1, 2, 3, 4, 5, 6, 7] mem1).bind fun mem' =>
            some ⟨Function.update ms1 p { ms1 p with rect := (ms1 p).rect.append rect }, mem'⟩
      else none

/-! ### The whole function -/

/-- What extraction hands to the caller: `m_msers`, `m_memory` and its size for one polarity. -/
structure Extracted where
  count : Nat
  ms : Nat → Mser
  mem : Mem
  memSize : Int

/-- `extract_pixel_parallel_4_acceleration` (1643–2051). `thr` is `m_recursive_point_threshold`,
`arr` the array `m_gray_order_regions`, `gm` the gray mask, `label` the link words minus
`m_boundary_pixel`, `heap0` what `m_heap` contains, `junk` what the block tables contain apart from
the cleared fields. `fuel` bounds the lengths of the chains of parents. -/
def extract4 (E : Env) (thr : Int) (gm : Nat) (fuel : Nat) (label : Nat → Nat → Nat)
    (heap0 : Reg → Option Int) (junk : Int × Int × Int) (X0 : XForest) (arr : List Reg) :
    Option Extracted :=
  let N := arr.length
  (arr.zipIdx.foldlM (markOne E gm) ⟨X0, fun _ => Mser.fresh, heap0, 0⟩).bind fun s1 =>
  (arr.zipIdx.foldlM (typeOne thr fuel) s1).bind fun s2 =>
  ((allRegs E).foldlM (assignOne E fuel) (s2.X, s2.heap)).bind fun s3 =>
  (countPatch E N s3.2 label 0).bind fun c0 =>
  (countPatch E N s3.2 label 1).bind fun c1 =>
  (countPatch E N s3.2 label 2).bind fun c2 =>
  (countPatch E N s3.2 label 3).bind fun c3 =>
  let M := s2.memSize
  let cs := fun k : Nat => if k = 0 then c0 else if k = 1 then c1 else if k = 2 then c2 else c3
  let start := fun k : Nat => if k = 0 then 0
    else if k = 1 then M - c3.total - c2.total - c1.total
    else if k = 2 then M - c3.total - c2.total
    else M - c3.total
  (arr.zipIdx.foldlM (headOne M) ⟨s3.1, s2.ms, fun _ => none, start, fun k => (cs k).cnt⟩).bind
    fun s4 =>
  let link := fun k => (cs k).link
  (fillPatch E M N link s4.cnt s4.mem 0 junk).bind fun f0 =>
  (fillPatch E M N link s4.cnt f0.mem 1 junk).bind fun f1 =>
  (fillPatch E M N link s4.cnt f1.mem 2 junk).bind fun f2 =>
  (fillPatch E M N link s4.cnt f2.mem 3 junk).bind fun f3 =>
  let box := fun k : Nat => if k = 0 then f0.box else if k = 1 then f1.box
    else if k = 2 then f2.box else f3.box
  (arr.zipIdx.foldlM (joinOne M N s4.X box) ⟨s4.ms, f3.mem⟩).bind fun s5 =>
  some ⟨N, s5.ms, s5.mem, M⟩

/-- `extract_pixel` (1335–1342): nothing happens if no region is reported. -/
def extractPixel (E : Env) (thr : Int) (gm : Nat) (fuel : Nat) (label : Nat → Nat → Nat)
    (heap0 : Reg → Option Int) (junk : Int × Int × Int) (X0 : XForest) (arr : List Reg) :
    Option Extracted :=
  if arr.length = 0 then some ⟨0, fun _ => Mser.fresh, fun _ => none, 0⟩
  else extract4 E thr gm fuel label heap0 junk X0 arr

/-! ### Reading back (img_mser_helper.cpp 67–118, 210–257) -/

/-- The points `begin ≤ pt < end`. -/
def readPoints (size : Int) (m : Mem) (a : Int) : Nat → Option (List (Int × Int))
  | 0 => some []
  | t + 1 => (readPoints size m a t).bind fun l =>
      (rd size m (2 * (a + t))).bind fun x =>
      (rd size m (2 * (a + t) + 1)).bind fun y => some (l ++ [(x, y)])

/-- Range `k` of the record at `p` (72–79). -/
def readSeg (size : Int) (m : Mem) (p : Int) (k : Nat) : Option (List (Int × Int)) :=
  (rd size m (2 * (p + k))).bind fun x =>
  (rd size m (2 * (p + k) + 1)).bind fun y => readPoints size m (p + x) (y - x).toNat

/-- The loop over the children 111–113: the stack grows by their positions relative to the first
record. `rel` is the position of the current record. -/
def pushKids (size : Int) (m : Mem) (p rel : Int) : Nat → List Int → Option (List Int)
  | 0, st => some st
  | c + 1, st => (pushKids size m p rel c st).bind fun st' =>
      (rd size m (2 * (p + 4) + (c + 1))).bind fun d => some ((d + rel) :: st')

/-- The loop 69–116. The stack holds positions relative to record `base`; `acc` are the points
visited so far. -/
def visit (X : Extracted) (base : Int) : Nat → List Int → List (Int × Int) →
    Option (List (Int × Int))
  | _, [], acc => some acc
  | 0, _ :: _, _ => none
  | f + 1, rel :: st, acc =>
    if 0 ≤ base + rel ∧ base + rel < X.count then
      let m := X.ms (base + rel).toNat
      (readSeg X.memSize X.mem m.points 0).bind fun l0 =>
      (readSeg X.memSize X.mem m.points 1).bind fun l1 =>
      (readSeg X.memSize X.mem m.points 2).bind fun l2 =>
      (readSeg X.memSize X.mem m.points 3).bind fun l3 =>
      let acc' := acc ++ l0 ++ l1 ++ l2 ++ l3
      match m.mtype with
      | .share4 => visit X base f st acc'
      | .recursive4 =>
        (rd X.memSize X.mem (2 * (m.points + 4))).bind fun c =>
        (pushKids X.memSize X.mem m.points rel c.toNat st).bind fun st' =>
          visit X base f st' acc'
      | .self => none
    else none

/-- All points visited for record `i`. A record is visited at most once, so as many turns as there
are records suffice. -/
def points (X : Extracted) (i : Nat) : Option (List (Int × Int)) :=
  visit X i X.count [0] []

end Verif.Extract
