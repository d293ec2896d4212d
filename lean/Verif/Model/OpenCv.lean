import Verif.Model.Flood
import Verif.Model.Recognize
import Verif.Model.Extract

/-!
# Model: the OpenCV detector

Models `img_opencv_mser`, /repo/basicimg/src/img_opencv_mser.cpp (line numbers without a file name refer to it) and
/repo/basicimg/include/img_opencv_mser.h.  Flooding, recognition and extraction are one pass: `extractPass`.

Simplifications (each is a change of representation, not of control flow):
* the `i16` word of a cell is three functions: `vis` (the sign), `dir` (bits 8–10) and `P.gray` (bits 0–7, never changed by the pass);
* the boundary heap is one stack per gray level, `lvl` is the level `heap_cur` points to;
* a pointer to a linked point or a history is its index in `m_points` or `m_history`;
* `mPrev` is written but never read and is left out; so are timing and logging, and `m_channel_total_pixel_number`;
* `double` is a rational with a rounding function; the values of `f32` parameters are exact in `double`.
-/

namespace Verif.OpenCv

open Function (update)
open Verif.Flood (Patch scan)
open Verif.Recog (Cfg)
open Verif.Extract (Rect)

/-! ### Data -/

/-- `LinkedPoint` (img_opencv_mser.h 20–26). -/
structure LPoint where
  x : Nat
  y : Nat
  next : Option Nat
deriving DecidableEq, Repr

/-- `GrowHistory` (img_opencv_mser.h 28–36). -/
structure Hist where
  shortCut : Nat
  child : Nat
  stable : Nat
  gray : Nat
  size : Nat
deriving DecidableEq, Repr

/-- `ConnectedComp` (img_opencv_mser.h 38–48); a member that was never assigned is `none`. -/
structure Comp where
  head : Option Nat
  tail : Option Nat
  hist : Option Nat
  gray : Nat
  size : Nat
  lastVar : Bool
  curVar : ℚ

/-- One delivered `img_mser` (156–181): `m_size` is the number of points.  `from_` is no member of it: the gray level of the history
whose pixels are delivered. -/
structure RecO where
  gray : Nat
  points : List (Nat × Nat)
  rect : Rect
  from_ : Nat

/-- The state of `extractPass`. -/
structure St where
  vis : Nat → Bool
  dir : Nat → Nat
  heap : Nat → List Nat
  lvl : Nat
  comps : List Comp
  hists : Nat → Hist
  nhist : Nat
  cur : Nat
  pts : Nat → LPoint
  npts : Nat
  out : List RecO

/-- Result of one step. -/
inductive Out where
  | next (s : St)
  | done (s : St)
  | ub

/-- What the pass reads but never writes: the parameters, `m_step_mask`, `m_step_gap`, the gray mask, and the common length of `m_points`
and `m_history` (394–395). -/
structure Env where
  P : Patch
  cfg : Cfg
  mask : Nat
  gap : Nat
  gm : Nat
  area : Nat

/-! ### The functions on components and histories -/

/-- `initComp` (10–15) together with the assignment of the level (250, 280); `mHead` and `mTail` are not assigned. -/
def initComp (g : Nat) : Comp :=
  { head := none, tail := none, hist := none, gray := g, size := 0, lastVar := true, curVar := 0 }

/-- The history made from component `c` at index `n`: lines 18–28, 36–46 and 65–72, 77–78. -/
def mkHist (H : Nat → Hist) (n : Nat) (c : Comp) : Hist :=
  match c.hist with
  | none => ⟨n, n, 0, c.gray, c.size⟩
  | some i => ⟨(H i).shortCut, n, (H i).stable, c.gray, c.size⟩

/-- `comp->mHistory->mChild = history` (23, 43, 69). -/
def setChild (H : Nat → Hist) (c : Comp) (n : Nat) : Nat → Hist :=
  match c.hist with
  | none => H
  | some i => update H i { H i with child := n }

/-- `newHistory` (17–30); the history gets the index `n`. -/
def newHistory (c : Comp) (H : Nat → Hist) (n : Nat) : Comp × (Nat → Hist) :=
  ({ c with hist := some n }, update (setChild H c n) n (mkHist H n c))

/-- `mStable` of the other component if it is larger (47–49, 73–75). -/
def maxStable (H : Nat → Hist) (c : Comp) (n : Nat) : Nat :=
  match c.hist with
  | none => n
  | some i => if n < (H i).stable then (H i).stable else n

/-- `mergeComp(c1, c2, c2, history)` (32–94): the new `c2`; `c1` is the upper component.  `none` is the use of a pointer never
assigned. -/
def mergeComp (c1 c2 : Comp) (H : Nat → Hist) (n : Nat) (pts : Nat → LPoint) :
    Option (Comp × (Nat → Hist) × (Nat → LPoint)) :=
  let a := if c2.size ≤ c1.size then c1 else c2                              -- 38: the winner
  let b := if c2.size ≤ c1.size then c2 else c1
  let h := { mkHist H n a with stable := maxStable H b (mkHist H n a).stable }
  let c := { head := if 0 < a.size then a.head else b.head
             tail := if 0 < b.size then b.tail else a.tail
             hist := some n, gray := c2.gray, size := c1.size + c2.size, lastVar := a.lastVar, curVar := a.curVar }
  let H' := update (setChild H a n) n h
  if 0 < c1.size ∧ 0 < c2.size then                                            -- 56–59, 82–85
    match a.tail, b.head with
    | some t, some hd => some (c, H', update pts t { pts t with next := some hd })
    | _, _ => none
  else some (c, H', pts)

/-- The loop 101–103; `f` bounds the number of turns. -/
def backLoop (H : Nat → Hist) (delta val : Int) : Nat → Nat → Option Nat
  | 0, _ => none
  | f + 1, i =>
    if i ≠ (H i).shortCut ∧ val < ((H i).gray : Int) + delta then backLoop H delta val f (H i).shortCut else some i

/-- The loop 105–109: `i` is `shortcut`, `j` is `child`. -/
def foreLoop (H : Nat → Hist) (delta val : Int) : Nat → Nat → Nat → Option Nat
  | 0, _, _ => none
  | f + 1, i, j =>
    if j ≠ (H j).child ∧ ((H j).gray : Int) + delta ≤ val then foreLoop H delta val f j (H j).child else some i

/-- `calculateVariation` (96–119) with history `i` of the component; `none` is a division by 0 or an endless loop. -/
def calcVar (cfg : Cfg) (f : Nat) (c : Comp) (i : Nat) (H : Nat → Hist) : Option (ℚ × (Nat → Hist)) :=
  (backLoop H cfg.delta c.gray f (H i).shortCut).bind fun s =>
  (foreLoop H cfg.delta c.gray f s (H s).child).bind fun s =>
  if (H s).size = 0 then none
  else some (cfg.r64 (((c.size : ℚ) - (H s).size) / (H s).size), update H i { H i with shortCut := s })

/-- `isStable` (121–139); `f` bounds the loops. -/
def isStable (cfg : Cfg) (f : Nat) (c : Comp) (H : Nat → Hist) : Option (Bool × Comp × (Nat → Hist)) :=
  match c.hist with
  | none => some (false, c, H)
  | some i =>
    if ((H i).size : Int) < cfg.minPoint ∨ cfg.maxPoint < ((H i).size : Int) then some (false, c, H)
    else if (H i).size = 0 then none
    else
      let div := cfg.r64 ((((H i).size : ℚ) - (H i).stable) / (H i).size)
      (calcVar cfg f c i H).bind fun vH =>
      let dvar := decide (c.curVar < vH.1 ∨ (vH.2 i).gray + 1 < c.gray)
      let stable := dvar && !c.lastVar && decide (c.curVar < cfg.stable) && decide (cfg.dup < div)
      let c' := { c with curVar := vH.1, lastVar := dvar }
      some (stable, c', if stable then update vH.2 i { vH.2 i with stable := (vH.2 i).size } else vH.2)

/-- `accumulateComp` (141–154); `n` is the index of the point. -/
def accumulate (x y n : Nat) (c : Comp) (pts : Nat → LPoint) : Option (Comp × (Nat → LPoint)) :=
  if 0 < c.size then
    match c.tail with
    | none => none
    | some t =>
      some ({ c with tail := some n, size := c.size + 1 },
        update (update pts t { pts t with next := some n }) n ⟨x, y, none⟩)
  else some ({ c with head := some n, tail := some n, size := c.size + 1 }, update pts n ⟨x, y, none⟩)

/-- The first `n` points of a list (167–177). -/
def readPts (pts : Nat → LPoint) : Nat → Option Nat → Option (List (Nat × Nat))
  | 0, _ => some []
  | _ + 1, none => none
  | n + 1, some p => (readPts pts n (pts p).next).map fun l => ((pts p).x, (pts p).y) :: l

/-- The rectangle (162–179); `INT_MAX` is `2147483647`. -/
def rectOf (l : List (Nat × Nat)) : Rect :=
  let colMin : Nat := l.foldl (fun m p => min m p.1) 2147483647
  let rowMin : Nat := l.foldl (fun m p => min m p.2) 2147483647
  let colMax : Nat := l.foldl (fun m p => max m p.1) 0
  let rowMax : Nat := l.foldl (fun m p => max m p.2) 0
  ⟨colMin, rowMin, (colMax : Int) - colMin + 1, (rowMax : Int) - rowMin + 1⟩

/-- `toMSERInfo` (156–181). -/
def toInfo (gm : Nat) (c : Comp) (H : Nat → Hist) (pts : Nat → LPoint) : Option RecO :=
  match c.hist with
  | none => none
  | some i => (readPts pts (H i).size c.head).map fun l =>
      { gray := if gm = 0 then c.gray % 256 else 255 - c.gray % 256, points := l, rect := rectOf l, from_ := (H i).gray }

/-! ### The pass -/

/-- One iteration of the `while` tour (259–290).  The component array has `P.cap` entries. -/
def tour (P : Patch) (s : St) : Out :=
  let d := s.dir s.cur
  let q := P.nb s.cur (d + 1)
  let bump := update s.dir s.cur (d + 1)
  if s.vis q = false then
    let vis := update s.vis q true
    let g := P.gray s.cur
    let ng := P.gray q
    if ng < g then
      if s.comps.length < P.cap then
        .next { s with
          vis := vis
          heap := update s.heap s.lvl (s.cur :: s.heap s.lvl)
          dir := bump
          lvl := s.lvl + ng - g
          cur := q
          comps := initComp ng :: s.comps }
      else .ub
    else
      let l := s.lvl + ng - g
      .next { s with vis := vis, heap := update s.heap l (q :: s.heap l), dir := bump }
  else .next { s with dir := bump }

/-- Stability and new history (318–324, 338–345): the component gets level `l`. -/
def raise (E : Env) (l : Nat) (c : Comp) (H : Nat → Hist) (n : Nat) (pts : Nat → LPoint) (out : List RecO) :
    Option (Comp × (Nat → Hist) × List RecO) :=
  if n < E.area then
    (isStable E.cfg (n + 1) c H).bind fun r =>
    (if r.1 then (toInfo E.gm r.2.1 r.2.2 pts).map fun i => out ++ [i] else some out).bind fun out' =>
    let k := newHistory r.2.1 r.2.2 n
    some ({ k.1 with gray := l }, k.2, out')
  else none

/-- Result of popping components until the level is reached. -/
structure Merged where
  comps : List Comp
  hists : Nat → Hist
  nhist : Nat
  pts : Nat → LPoint
  out : List RecO

/-- The merging loop (327–348): `c` is the top component, the list is what lies below it.  `none` is undefined behaviour. -/
def mergeLoop (E : Env) (l : Nat) : Comp → List Comp → (Nat → Hist) → Nat → (Nat → LPoint) → List RecO → Option Merged
  | c, d :: rest, H, n, pts, out =>
    if n < E.area then
      (mergeComp c d H n pts).bind fun m =>
      if l ≤ m.1.gray then some ⟨m.1 :: rest, m.2.1, n + 1, m.2.2, out⟩
      else
        match rest with
        | [] => none
        | e :: rest' =>
          if l < e.gray then
            (raise E l m.1 m.2.1 (n + 1) m.2.2 out).bind fun k => some ⟨k.1 :: e :: rest', k.2.1, n + 2, m.2.2, k.2.2⟩
          else mergeLoop E l m.1 (e :: rest') m.2.1 (n + 1) m.2.2 out
    else none
  | _, [], _, _, _, _ => none

/-- `imsk & m_step_mask` and `imsk >> m_step_gap` (291–293) with `imsk = imgptr - ioptr`. -/
def place (E : Env) (i : Nat) : Nat × Nat := ((i - E.P.start) &&& E.mask, (i - E.P.start) >>> E.gap)

/-- The rest of the loop body (291–352). -/
def finish (E : Env) (s : St) : Out :=
  match s.comps with
  | c :: d :: rest =>
    if E.gap < 32 ∧ s.npts < E.area then                                                   -- a longer shift is undefined
      match accumulate (place E s.cur).1 (place E s.cur).2 s.npts c s.pts with
      | none => .ub
      | some (c, pts) =>
        let s := { s with pts := pts, npts := s.npts + 1, comps := c :: d :: rest }
        match s.heap s.lvl with
        | p :: ps => .next { s with cur := p, heap := update s.heap s.lvl ps }             -- 298–300
        | [] =>
          match scan s.heap (255 - E.P.gray s.cur) (E.P.gray s.cur + 1) with               -- 302–310
          | none => .done s
          | some l =>
            match s.heap l with
            | [] => .ub
            | p :: ps =>
              let heap := update s.heap l ps
              if l < d.gray then
                match raise E l c s.hists s.nhist s.pts s.out with
                | none => .ub
                | some (c, H, out) =>
                  .next { s with heap := heap, lvl := l, comps := c :: d :: rest, hists := H, nhist := s.nhist + 1
                                 cur := p, out := out }
              else
                match mergeLoop E l c (d :: rest) s.hists s.nhist s.pts s.out with
                | none => .ub
                | some m =>
                  .next { s with heap := heap, lvl := l, comps := m.comps, hists := m.hists, nhist := m.nhist, pts := m.pts
                                 cur := p, out := m.out }
    else .ub
  | _ => .ub

/-- One elementary step of the outer loop (257–353). -/
def step (E : Env) (s : St) : Out :=
  if s.dir s.cur < E.P.nd then tour E.P s else finish E s

/-- Run at most `n` steps; `next` means the step budget was used up. -/
def run (E : Env) : Nat → St → Out
  | 0, s => .next s
  | n + 1, s =>
    match step E s with
    | .next s' => run E n s'
    | o => o

/-! ### The image -/

/-- `allocate_memory` (374–381): `width` and `stepgap` after the loop; `f` bounds the number of turns. -/
def grow (w : Nat) : Nat → Nat × Nat → Nat × Nat
  | 0, s => s
  | f + 1, s => if s.1 < w + 2 then grow w f (s.1 * 2, s.2 + 1) else s

/-- `width` and `stepgap`.  The second number is thrown away by the code. -/
def widthGap (w : Nat) : Nat × Nat := grow w (w + 2) (8, 3)

/-- What `preProcessImage` writes for a pixel (200–224). -/
def level (gm v : Nat) : Nat := if gm ≠ 0 then v else 255 - v

/-- The word of cell `i` after `preProcessImage` (183–228); `W` is the row length of `m_temp_image`, `old` its content before.  The columns from `w + 2` on
are not written. -/
def preProcess (W w h : Nat) (img : Nat → Nat → Nat) (gm : Nat) (old : Nat → Int) (i : Nat) : Int :=
  let row := i / W
  let col := i % W
  if h + 2 ≤ row ∨ w + 2 ≤ col then old i
  else if row = 0 ∨ row = h + 1 ∨ col = 0 ∨ col = w + 1 then -1
  else level gm (img (col - 1) (row - 1))

/-- The index of pixel `(x, y)` in `m_temp_image`. -/
def cell (W : Nat) (p : Nat × Nat) : Nat := (p.2 + 1) * W + (p.1 + 1)

/-- `m_dir` (397–400). -/
def nbO (W i : Nat) : Nat → Nat
  | 1 => i + 1
  | 2 => i + W
  | 3 => i - 1
  | 4 => i - W
  | _ => i

/-- The image as the pass sees it; `m_comp` has 257 entries (img_opencv_mser.h 82). -/
def patchO (W w h : Nat) (img : Nat → Nat → Nat) (gm : Nat) : Patch where
  nd := 4
  nb := nbO W
  gray := fun i => level gm (img (i % W - 1) (i / W - 1))
  start := W + 1
  cap := 257
  px := (Finset.range w ×ˢ Finset.range h).image (cell W)

/-- The start of the pass (241–255). -/
def init (P : Patch) (vis : Nat → Bool) (H : Nat → Hist) (pts : Nat → LPoint) : St where
  vis := update vis P.start true
  dir := fun _ => 0
  heap := fun _ => []
  lvl := P.gray P.start
  comps := [initComp (P.gray P.start), initComp 256]
  hists := H
  nhist := 0
  cur := P.start
  pts := pts
  npts := 0
  out := []

/-- The environment of a pass over a `w × h` image; `gap` is what `m_step_gap` contains: no line of the code assigns it. -/
def envO (w h : Nat) (img : Nat → Nat → Nat) (gm : Nat) (cfg : Cfg) (gap : Nat) : Env where
  P := patchO (widthGap w).1 w h img gm
  cfg := cfg
  mask := (widthGap w).1 - 1
  gap := gap
  gm := gm
  area := w * h

/-- One polarity: `build_tree` and `extract_pixel` (405–421).  `old`, `H` and `pts` are what the buffers contain. -/
def pass (w h : Nat) (img : Nat → Nat → Nat) (gm : Nat) (cfg : Cfg) (gap : Nat) (old : Nat → Int) (H : Nat → Hist)
    (pts : Nat → LPoint) (n : Nat) : Out :=
  let E := envO w h img gm cfg gap
  run E n (init E.P (fun i => decide (preProcess (widthGap w).1 w h img gm old i < 0)) H pts)

end Verif.OpenCv
