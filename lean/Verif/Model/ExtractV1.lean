import Verif.Model.RecognizeV1
import Verif.Model.Extract
import Verif.Model.MergeV1

/-!
# Model: extracting the pixels of the reported regions in Fast MSER V1

`img_fast_mser_v1::extract_pixel` (/repo/basicimg/src/img_fast_mser_v1.cpp 2645–2660) calls
`extract_pixel_parallel_1_fast` (2867–2979) for one thread and `extract_pixel_parallel_k_fast` (2981–3171) otherwise;
the latter runs `extract_top_pixel_parallel` (3173–3205) in every thread.  The reader is the case
`Memory_Type_Range` of `image_from_mser` (/repo/basicimg/src/img_mser_helper.cpp 56–66).

The pixels of every reported region that lies in no other reported region, called top region, are copied to the
array `m_memory`; the other reported regions are found inside, as the list of a region is a part of the list of its
parent.

Conventions:
* the memory is a table of points, `none` for a cell not written; every access outside of the allocated cells, every
  read of a point number −1 and every read of an unwritten cell is the outcome `none` of the function;
* `R` holds parents and flags as recognition leaves them, `M` the other fields;
* the threads of 3124–3151 run one after the other.  They write to different cells and different points
  (`Verif.Props.C68_threads_disjoint`);
* the arrays `parallel_stop_indexes` and `memory_offsets` have `n` cells each, in `m_start_indexes` (3043–3078).
-/

namespace Verif.V1

open Function (update)
open Verif.Recog (RForest Recognized setParent)

variable {ι : Type} [DecidableEq ι]

/-- The search for the nearest reported region above (2889–2890, 3008–3009). -/
def topLoop (R : RForest ι) : Nat → Option ι → Option (Option ι)
  | _, none => some none
  | k, some p =>
    if (R p).flag = .valid then some (some p)
    else
      match k with
      | 0 => none
      | k + 1 => topLoop R k (R p).parent

/-- Region objects and the top regions found so far. -/
structure TopSt (ι : Type) where
  R : RForest ι
  tops : List ι

/-- One iteration of the search for top regions (2886–2906, 3005–3027).  `top_regions` is the part of the heap
behind the reported regions, of `cap` cells.  Only the top region number `cap` goes to `top_backup`, as the test in
2893 and 3014 is for equality; a later one is written behind the heap.  `multi` stands for the second version, which
also stores the region found (3011). -/
def topStep (multi : Bool) (fuel cap : Nat) (s : TopSt ι) (r : ι) : Option (TopSt ι) :=
  match topLoop s.R fuel (s.R r).parent with
  | none => none
  | some q =>
    let R := if multi then setParent s.R r q else s.R
    match q with
    | some _ => some { s with R := R }
    | none => if s.tops.length ≤ cap then some ⟨R, s.tops ++ [r]⟩ else none

/-- The copied points and the list nodes. -/
structure Fill where
  mem : Nat → Option (Nat × Nat)
  pts : Nat → Point

/-- Copying a list of `k` points starting with point `p` to the cells from `pos` on (2927–2940, 3190–3203); the
array has `msize` cells. -/
def fillList (msize : Nat) : Nat → Option Nat → Nat → Fill → Option Fill
  | 0, _, _, s => some s
  | _ + 1, none, _, _ => none
  | k + 1, some p, pos, s =>
    if pos < msize then
      fillList msize k (s.pts p).next (pos + 1)
        ⟨update s.mem pos (some ((s.pts p).x, (s.pts p).y)), update s.pts p { s.pts p with ref := some pos }⟩
    else none

/-- Copying the lists of several regions one behind the other (2917–2941, 3180–3204). -/
def fillTops (regs : ι → CReg ι) (msize : Nat) : List ι → Nat → Fill → Option Fill
  | [], _, s => some s
  | r :: rs, pos, s =>
    match fillList msize (regs r).size.toNat (some (regs r).head) pos s with
    | none => none
    | some s => fillTops regs msize rs (pos + (regs r).size.toNat) s

/-- `parallel_stop_indexes` and `memory_offsets`. -/
structure Split where
  stops : Nat → Nat
  offs : Nat → Nat

/-- The division of the top regions among `n` threads (3086–3108) from top region `i` on; the list holds the sizes
of the remaining ones, `q` is `quarter_size`. -/
def splitLoop (n q : Nat) : List Nat → Nat → Nat → Nat → Nat → Split → Split
  | [], _, _, _, _, s => s
  | z :: zs, i, cur, idx, ps, s =>
    let cur := cur + z
    let s := { s with stops := update s.stops idx i }
    if ps < cur then
      if idx + 1 = n then s
      else splitLoop n q zs (i + 1) cur (idx + 1) (ps + q) { s with offs := update s.offs (idx + 1) cur }
    else splitLoop n q zs (i + 1) cur idx ps s

/-- The division of top regions of the given sizes (3080–3108). -/
def splitTops (n : Nat) (sizes : List Nat) : Split :=
  let q := sizes.sum / n
  splitLoop n q sizes 0 0 0 q ⟨fun _ => 0, fun _ => 0⟩

/-- The numbers of the top regions of thread `k` (3174–3175, 3180). -/
def threadRange (s : Split) (k : Nat) : List Nat :=
  let start := if k = 0 then 0 else s.stops (k - 1) + 1
  List.range' start (s.stops k + 1 - start)

/-- `extract_top_pixel_parallel` of thread `k` (3173–3205). -/
def threadFill (regs : ι → CReg ι) (msize : Nat) (tops : List ι) (sp : Split) (s : Fill) (k : Nat) : Option Fill :=
  match (threadRange sp k).mapM (fun i => tops[i]?) with
  | none => none
  | some l => fillTops regs msize l (sp.offs k) s

/-- What is in the field `m_points` of a record: the address of a cell, as a distance from `m_memory`, or two
numbers (2975–2977). -/
inductive Ptr
  | addr (a : Int)
  | pair (a b : Int)
deriving DecidableEq

/-- A record of V1; `m_memory_type` is `Memory_Type_Range`. -/
structure RecV1 where
  size : Int
  gray : Nat
  points : Ptr
  rect : Extract.Rect

/-- An index in a linked point as `i32`. -/
def idx32 (o : Option Nat) : Int :=
  match o with
  | none => -1
  | some a => (a : Int)

/-- The record of a region for one thread (2966–2978); `m_rect` stays as the constructor of `img_mser` makes it. -/
def recOne (M : Mem ι) (pts : Nat → Point) (gm : Nat) (r : ι) : RecV1 where
  size := (M.regs r).size
  gray := (M.regs r).gray ^^^ gm
  points := .pair (idx32 (pts (M.regs r).head).ref) (idx32 (pts (M.regs r).tail).ref)
  rect := Extract.Rect.zero

/-- The record of a region for several threads (3160–3170). -/
def recMany (M : Mem ι) (pts : Nat → Point) (gm : Nat) (r : ι) : RecV1 where
  size := (M.regs r).size
  gray := (M.regs r).gray ^^^ gm
  points := .addr (idx32 (pts (M.regs r).head).ref)
  rect := ⟨(M.regs r).rect.left, (M.regs r).rect.top, ((M.regs r).rect.right : Int) - (M.regs r).rect.left + 1,
    ((M.regs r).rect.bottom : Int) - (M.regs r).rect.top + 1⟩

/-- The result of extraction. -/
structure XOutV1 where
  mem : Nat → Option (Nat × Nat)
  msize : Nat
  recs : List RecV1

/-- `extract_pixel` of V1 with `n` threads (2645–2660); the heap has `hsize` cells. -/
def extractV1 (n gm fuel hsize : Nat) (M : Mem ι) (out : Recognized ι) : Option XOutV1 :=
  if out.reported = [] then some ⟨fun _ => none, 0, []⟩                                    -- 2646–2648
  else
    match out.reported.foldlM (topStep (decide (n ≠ 1)) fuel (hsize - out.reported.length)) ⟨out.R, []⟩ with
    | none => none
    | some s =>
      let sizes := s.tops.map fun r => (M.regs r).size.toNat
      let msize := sizes.sum
      if n = 1 then
        match fillTops M.regs msize s.tops 0 ⟨fun _ => none, M.pts⟩ with
        | none => none
        | some f => some ⟨f.mem, msize, out.reported.map (recOne M f.pts gm)⟩
      else
        match (List.range n).foldlM (threadFill M.regs msize s.tops (splitTops n sizes)) ⟨fun _ => none, M.pts⟩ with
        | none => none
        | some f => some ⟨f.mem, msize, out.reported.map (recMany M f.pts gm)⟩

/-! ### The reader -/

/-- `m_points[i]` for `i < m_size` (img_mser_helper.cpp 57–59).  Two numbers written over a pointer are no pointer. -/
def readRange (x : XOutV1) (r : RecV1) : Option (List (Nat × Nat)) :=
  match r.points with
  | .pair _ _ => if r.size ≤ 0 then some [] else none
  | .addr a => (List.range r.size.toNat).mapM fun (i : Nat) =>
      if 0 ≤ a + i ∧ a + i < x.msize then x.mem (a + i).toNat else none

end Verif.V1
