import Verif.Model.Ms
import Verif.Model.Extract

/-!
# Model: the ms detector, extraction of the pixels

`img_ms_mser::extract_pixel` (/repo/basicimg/src/img_ms_mser.cpp 572–871) and the cases `Memory_Type_Self`,
`Memory_Type_Share` and `Memory_Type_Recursive` of `image_from_mser` (/repo/basicimg/src/img_mser_helper.cpp 56–66,
119–165).  Line numbers refer to the first file unless said otherwise.

* Region pointers are pairs `(0, r)`, `r` the position in `m_mser_regions`, so that the loops V2 has too
  (`Extract.climbValid`, `compress`, `assignOne`) can be taken from there.  `XNode.index` is that position
  (`cur_region - m_mser_regions`), `XNode.pix` the union of `m_size` and `m_child_pixel_size`, `XNode.kids` the union of
  `m_var`, `m_child_memory_number` and `m_mser_index` (img_ms_mser.h).
* A pointer `img_mser*` in the table `mser_heap` is the number of the record, −1 for null.  The table is `m_heap`,
  which has more cells than there are regions (`heapCells`).
* A pointer into points is an array (0: `msers.m_memory`, `i + 1`: the array made for record `i` in 603) and an offset.
  Points are two cells of one `i32` as in `Model/Extract`.
* Every access outside of an array, every read of an unwritten cell, and a `memcpy` of overlapping areas is the outcome
  `none`.  `region_memory_size` is an `i32`; its overflow is the outcome `none`.
-/

namespace Verif.Ms

open Function (update)
open Verif.Recog (Recognized)
open Verif.Extract (Reg XNode XForest Env Rect Mem wr rd climbValid compress assignOne allRegs scan readPoints)

/-- `m_memory_type` (/repo/basicimg/include/img_mser_base.h 10–18). -/
inductive MType
  | self | share | recursive
  deriving DecidableEq

/-- A record `img_mser`; `m_points` is `arr` and `points`. -/
structure RecM where
  size : Nat
  gray : Nat
  mtype : MType
  arr : Nat
  points : Int
  rect : Rect

/-- A record as `t_msers.resize` (579) makes it. -/
def RecM.fresh : RecM := ⟨0, 0, .self, 0, 0, Rect.zero⟩

/-- The region objects: one array `m_mser_regions` with `nreg` objects; the loops of V2 expect four arrays, the others
are empty. -/
def envM (w h nreg : Nat) : Env :=
  ⟨4, fun k => if k = 0 then nreg else 0, fun k => if k = 0 then ⟨0, 0, w, h⟩ else ⟨0, 0, 0, 0⟩⟩

/-- The region objects with pairs as pointers. -/
def regsM (R : Recog.RForest Nat) : Recog.RForest Reg := fun r =>
  { parent := if r.1 = 0 then (R r.2).parent.map fun p => (0, p) else none
    gray := (R r.2).gray, size := (R r.2).size, flag := (R r.2).flag, var := (R r.2).var
    counted := (R r.2).counted }

/-- State of the preparing loops. -/
structure PrepM where
  X : XForest
  ms : Nat → RecM
  heap : Reg → Option Int
  memSize : Int

/-! ### Nearest reported ancestor (627–643, 702–719) -/

/-- The reported parent counts its child (633–635; 709–712 with `kids`). -/
def countM (kids : Bool) (X : XForest) (size : Nat) : Option Reg → XForest
  | none => X
  | some q => update X q { X q with
      kids := if kids then (X q).kids + 1 else (X q).kids
      pix := (X q).pix + size }

/-- The region `r` and all regions on the way get the nearest reported region above as parent (627–643, 705–724). -/
def linkM (kids : Bool) (fuel : Nat) (X : XForest) (size : Nat) (r : Reg) : Option XForest :=
  match climbValid X fuel (X r).parent with
  | none => none
  | some real =>
    let X1 := countM kids X size real
    compress real fuel (update X1 r { X1 r with parent := real }) (X r).parent

/-! ### Threshold −1 or `INT_MAX` (591–681) -/

/-- One turn of the loop 598–620; `memSize` is `memory_offset - memory`. -/
def markA (E : Env) (gm : Nat) (own : Bool) (s : PrepM) (ri : Reg × Nat) : Option PrepM :=
  let r := ri.1
  let i := ri.2
  let x := s.X r
  if r.1 < E.n ∧ x.index < E.nreg r.1 then
    some
      { X := update s.X r { x with pix := 0, kids := i }
        ms := update s.ms i
          { size := x.pix, gray := x.gray ^^^ gm
            mtype := if own then .self else .share
            arr := if own then i + 1 else 0
            points := if own then 0 else s.memSize
            rect := { (s.ms i).rect with left := -1 } }
        heap := update s.heap (r.1, x.index) (some (i : Int))
        memSize := if own then s.memSize else s.memSize + x.pix }
  else none

/-- One turn of the loop 623–644. -/
def linkA (fuel : Nat) (ms : Nat → RecM) (X : XForest) (ri : Reg × Nat) : Option XForest :=
  linkM false fuel X (ms ri.2).size ri.1

/-- One turn of the loop 649–680. -/
def assignA (E : Env) (fuel : Nat) (s : XForest × (Reg → Option Int)) (r : Reg) :
    Option (XForest × (Reg → Option Int)) :=
  if (s.1 r).flag = .valid then
    match climbValid s.1 fuel (s.1 r).parent with
    | none => none
    | some real => some (update s.1 r { s.1 r with parent := real }, s.2)
  else assignOne E fuel s r

/-! ### Other thresholds (682–775) -/

/-- One turn of the loop 683–691. -/
def markB (gm : Nat) (s : PrepM) (ri : Reg × Nat) : PrepM :=
  let r := ri.1
  let i := ri.2
  let x := s.X r
  { s with
    X := update s.X r { x with pix := 0, kids := 0 }
    ms := update s.ms i { s.ms i with size := x.pix, gray := x.gray ^^^ gm, rect := { (s.ms i).rect with left := -1 } } }

/-- One turn of the loop 693–724. -/
def typeB (E : Env) (thr : Int) (fuel : Nat) (s : PrepM) (ri : Reg × Nat) : Option PrepM :=
  let r := ri.1
  let i := ri.2
  let x := s.X r
  let m := s.ms i
  if r.1 < E.n ∧ x.index < E.nreg r.1 then
    let shared := x.kids = 0 ∨ (m.size : Int) ≤ thr
    let memSize := s.memSize +
      (if shared then (m.size : Int) else 1 + (m.size : Int) - (x.pix : Int) + (1 + (x.kids : Int)) / 2)
    match linkM true fuel s.X m.size r with
    | none => none
    | some X =>
      some
        { X := X
          ms := update s.ms i { m with mtype := if shared then .share else .recursive }
          heap := update s.heap (r.1, x.index) (some (i : Int))
          memSize := memSize }
  else none

/-- State of the loop 729–746; `off` is `memory_offset - memory`. -/
structure HeadM where
  X : XForest
  ms : Nat → RecM
  mem : Mem
  off : Int

/-- One turn of the loop 729–746. -/
def headB (size : Int) (s : HeadM) (ri : Reg × Nat) : Option HeadM :=
  let r := ri.1
  let i := ri.2
  let x := s.X r
  let m := s.ms i
  let X := update s.X r { x with kids := i }
  if m.mtype = .share then
    some { X := X, ms := update s.ms i { m with points := s.off }, mem := s.mem, off := s.off + m.size }
  else
    (wr size s.mem (2 * s.off) ((m.size : Int) - x.pix)).bind fun m1 =>
    (wr size m1 (2 * s.off + 1) 0).bind fun m2 =>
    some { X := X, ms := update s.ms i { m with points := s.off + 1 }, mem := m2
           off := s.off + (1 + (m.size : Int) - x.pix + (1 + (x.kids : Int)) / 2) }

/-! ### Writing the pixels (777–830) -/

/-- The rectangle after the point `(x, y)` (791–811); `width` and `height` hold the right and the bottom side. -/
def growM (R : Rect) (x y : Int) : Rect :=
  if R.left = -1 then ⟨x, y, x, y⟩
  else
    let l := if x < R.left then x else R.left
    let r := if x < R.left then R.width else if x > R.width then x else R.width
    let t := if y < R.top then y else R.top
    let b := if y < R.top then R.height else if y > R.height then y else R.height
    ⟨l, t, r, b⟩

/-- State of the loops behind: records and points. -/
structure FillM where
  ms : Nat → RecM
  mem : Nat → Mem

/-- One turn of the inner loop 783–815 for the pixel `rc`; `label` is `*link_points - m_boundary_pixel`; `asz` are
the sizes of the arrays. -/
def fillM (E : Env) (N : Nat) (asz : Nat → Int) (heap : Reg → Option Int) (label : Nat → Nat) (s : FillM)
    (rc : Nat × Nat) : Option FillM :=
  let c := Flood.idx (E.pi 0).width rc.2 rc.1
  if label c < E.nreg 0 then
    match heap (0, label c) with
    | none => none
    | some v =>
      if v = -1 then some s
      else if 0 ≤ v ∧ v < N then
        let j := v.toNat
        let m := s.ms j
        (wr (asz m.arr) (s.mem m.arr) (2 * m.points) (rc.2 : Int)).bind fun m1 =>
        (wr (asz m.arr) m1 (2 * m.points + 1) (rc.1 : Int)).bind fun m2 =>
        some
          { ms := update s.ms j { m with points := m.points + 1, rect := growM m.rect rc.2 rc.1 }
            mem := update s.mem m.arr m2 }
      else none
  else none

/-- One turn of the loop 820–830. -/
def fixM (X : XForest) (ms : Nat → RecM) (ri : Reg × Nat) : Nat → RecM :=
  let m := ms ri.2
  update ms ri.2 { m with
    rect := ⟨m.rect.left, m.rect.top, m.rect.width - m.rect.left + 1, m.rect.height - m.rect.top + 1⟩
    points := if m.mtype = .recursive then m.points - (1 + (m.size : Int) - (X ri.1).pix) else m.points }

/-! ### Collecting (832–870) -/

/-- `memcpy` (854) of `n` cells, cell by cell. -/
def copyM (asz : Nat → Int) (bd : Nat) (dst : Int) (bs : Nat) (src : Int) : Nat → (Nat → Mem) → Option (Nat → Mem)
  | 0, m => some m
  | t + 1, m => (copyM asz bd dst bs src t m).bind fun m' =>
      (rd (asz bs) (m' bs) (src + t)).bind fun v =>
      (wr (asz bd) (m' bd) (dst + t) v).bind fun md => some (update m' bd md)

/-- `child_data[parent_mser->m_points[0].m_y++] = &cur_mser - parent_mser` (858–861, 864–867); `p` is
`parent_mser->m_points`. -/
def addKid (size : Int) (p d : Int) (m : Mem) : Option Mem :=
  (rd size m (2 * p)).bind fun x =>
  (rd size m (2 * p + 1)).bind fun y =>
  (wr size m (2 * p + 1) (y + 1)).bind fun m' => wr size m' (2 * (p + 1 + x) + y) d

/-- `parent_region != NULL && parent_region->m_region_flag == Flag_Valid` (841), and the record `m_mser_index` of it
(842). -/
def parentM (X : XForest) (r : Reg) : Option Nat :=
  match (X r).parent with
  | none => none
  | some q => if (X q).flag = .valid then some (X q).kids else none

/-- One turn of the loop 835–870. -/
def joinM (N : Nat) (asz : Nat → Int) (X : XForest) (s : FillM) (ri : Reg × Nat) : Option FillM :=
  let i := ri.2
  let plain := (s.ms i).mtype = .share ∨ (s.ms i).mtype = .self
  let back := fun m : RecM => { m with points := if plain then m.points - m.size else m.points }
  match parentM X ri.1 with
  | none => some { s with ms := update s.ms i (back (s.ms i)) }
  | some p =>
    if p < N then
      let ms1 := update s.ms p { s.ms p with rect := (s.ms p).rect.append (s.ms i).rect }
      let ms2 := update ms1 i (back (ms1 i))
      let cur := ms2 i
      let par := ms2 p
      if plain ∧ (par.mtype = .share ∨ cur.mtype = .self) then
        if par.arr = cur.arr → par.points + cur.size ≤ cur.points ∨ cur.points + cur.size ≤ par.points then
          (copyM asz par.arr (2 * par.points) cur.arr (2 * cur.points) (2 * cur.size) s.mem).bind fun mem =>
            some { ms := update ms2 p { par with points := par.points + cur.size }, mem := mem }
        else none
      else
        (addKid (asz par.arr) par.points ((i : Int) - p) (s.mem par.arr)).bind fun m =>
          some { ms := ms2, mem := update s.mem par.arr m }
    else none

/-! ### The whole function -/

/-- What extraction hands to the caller. -/
structure XOutM where
  count : Nat
  ms : Nat → RecM
  mem : Nat → Mem
  asz : Nat → Int

/-- Filling and collecting (777–870). -/
def finishM (E : Env) (label : Nat → Nat) (arr : List Reg) (asz : Nat → Int) (X : XForest) (heap : Reg → Option Int)
    (s : FillM) : Option XOutM :=
  ((scan (E.pi 0).width (E.pi 0).height).foldlM (fillM E arr.length asz heap label) s).bind fun s1 =>
  let ms := arr.zipIdx.foldl (fixM X) s1.ms
  (arr.zipIdx.foldlM (joinM arr.length asz X) ⟨ms, s1.mem⟩).bind fun s2 =>
  some ⟨arr.length, s2.ms, s2.mem, asz⟩

/-- The sizes of the arrays: the common one, and one per record. -/
def sizesM (common : Int) (ms : Nat → RecM) : Nat → Int
  | 0 => common
  | i + 1 => ((ms i).size : Int)

/-- `INT_MAX`. -/
def intMax : Int := 2147483647

/-- `extract_pixel` (572–871) for the reported regions `arr`; `thr` is `m_recursive_point_threshold`, `pixels` is
`m_channel_total_pixel_number` (a `u32`), `label` the words of the pixels minus `m_boundary_pixel`, `heap0` what `m_heap`
contains.  `fuel` bounds the lengths of the chains of parents. -/
def extractM (E : Env) (thr : Int) (gm : Nat) (fuel pixels : Nat) (label : Nat → Nat) (heap0 : Reg → Option Int)
    (X0 : XForest) (arr : List Reg) : Option XOutM :=
  if arr.length = 0 then some ⟨0, fun _ => RecM.fresh, fun _ _ => none, fun _ => 0⟩
  else if thr = -1 ∨ thr = intMax then
    let own := decide (thr = -1)
    if own ∨ pixels < 2 ^ 31 then
      (arr.zipIdx.foldlM (markA E gm own) ⟨X0, fun _ => RecM.fresh, heap0, 0⟩).bind fun s1 =>
      (arr.zipIdx.foldlM (linkA fuel s1.ms) s1.X).bind fun X2 =>
      ((allRegs E).foldlM (assignA E fuel) (X2, s1.heap)).bind fun s3 =>
      finishM E label arr (sizesM (if own then 0 else (pixels : Int)) s1.ms) s3.1 s3.2 ⟨s1.ms, fun _ _ => none⟩
    else none
  else
    let s1 := arr.zipIdx.foldl (markB gm) ⟨X0, fun _ => RecM.fresh, heap0, 0⟩
    (arr.zipIdx.foldlM (typeB E thr fuel) s1).bind fun s2 =>
    if s2.memSize < 2 ^ 31 then
      (arr.zipIdx.foldlM (headB s2.memSize) ⟨s2.X, s2.ms, fun _ => none, 0⟩).bind fun s3 =>
      ((allRegs E).foldlM (assignOne E fuel) (s3.X, s2.heap)).bind fun s4 =>
      finishM E label arr (fun b => if b = 0 then s2.memSize else 0) s4.1 s4.2
        ⟨s3.ms, fun b => if b = 0 then s3.mem else fun _ => none⟩
    else none

/-- `extract_pixel` after recognition; `m_assigned_pointer` is 0 (368, 382), `junk` is what the union with `m_var`
contains. -/
def extract (w h nreg : Nat) (words : Nat → Nat) (thr : Int) (gm fuel : Nat) (heap0 : Reg → Option Int)
    (junk : Reg → Nat) (out : Recognized Nat) : Option XOutM :=
  extractM (envM w h nreg) thr gm fuel out.pixels (FloodMem.labelOf words) heap0
    (Extract.ofRecognized (regsM out.R) junk) (out.reported.map fun r => (0, r))

/-! ### Reading back -/

/-- The loop over the children (img_mser_helper.cpp 157–159); `e` is the first point behind the own ones. -/
def pushKidsM (size : Int) (m : Mem) (e rel : Int) : Nat → List Int → Option (List Int)
  | 0, st => some st
  | c + 1, st => (pushKidsM size m e rel c st).bind fun st' =>
      (rd size m (2 * e + c)).bind fun d => some ((d + rel) :: st')

/-- The loop img_mser_helper.cpp 122–162. -/
def visitM (X : XOutM) (base : Int) : Nat → List Int → List (Int × Int) → Option (List (Int × Int))
  | _, [], acc => some acc
  | 0, _ :: _, _ => none
  | f + 1, rel :: st, acc =>
    if 0 ≤ base + rel ∧ base + rel < X.count then
      let m := X.ms (base + rel).toNat
      let size := X.asz m.arr
      let mem := X.mem m.arr
      if m.mtype = .share then
        (readPoints size mem m.points m.size).bind fun l => visitM X base f st (acc ++ l)
      else
        (rd size mem (2 * m.points)).bind fun x =>
        (readPoints size mem (m.points + 1) x.toNat).bind fun l =>
        (rd size mem (2 * m.points + 1)).bind fun y =>
        (pushKidsM size mem (m.points + 1 + x) rel y.toNat st).bind fun st' => visitM X base f st' (acc ++ l)
    else none

/-- All points visited for record `i` (img_mser_helper.cpp 56–66, 119–165). -/
def pointsM (X : XOutM) (i : Nat) : Option (List (Int × Int)) :=
  let m := X.ms i
  if m.mtype = .recursive then visitM X i X.count [0] []
  else readPoints (X.asz m.arr) (X.mem m.arr) m.points m.size

end Verif.Ms
