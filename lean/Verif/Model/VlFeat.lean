import Mathlib.Algebra.Order.Ring.Unbundled.Rat
import Mathlib.Data.Rat.Defs

/-!
# The VLFeat detector

`basicimg/src/img_vlfeat_mser.cpp`: sorting of the pixels, the forest of joined pixels (union–find), extraction and linking of the
extremal regions, recognition and report.  Images have two dimensions (`allocate_memory`, 2361–2363, passes `dims = {width, height}`);
a pixel is its index `x + y·width`.  An array is a function from indexes; an access outside of an array, a decrement of an unsigned 0 or
a loop that has not ended after the given number of steps is the outcome `none`.  The number of pixels is below 2³¹, so that no counter
or area overflows (areas are at most the number of pixels).  `free` of the former arrays and the counters of `stats` are not modelled.
-/

namespace Verif.VlFeat

/-- An array after a write. -/
def upd {β : Type} (f : Nat → β) (i : Nat) (v : β) : Nat → β := fun x => if x = i then v else f x

/-! ### Sorting of the pixels, 1397–1452 -/

/-- `++buckets[get_gray(im[i])]`, 1416–1418, for `k` pixels from `i` on; `g` is `get_gray` of the pixel (a byte). -/
def countLoop (g : Nat → Nat) : Nat → Nat → (Nat → Nat) → Nat → Nat
  | 0, _, b => b
  | k + 1, i, b => countLoop g k (i + 1) (upd b (g i) (b (g i) + 1))

/-- `buckets[i] += buckets[i - 1]`, 1424–1426, for `k` numbers from `i` on. -/
def cumLoop : Nat → Nat → (Nat → Nat) → Nat → Nat
  | 0, _, b => b
  | k + 1, i, b => cumLoop k (i + 1) (upd b i (b i + b (i - 1)))

/-- `perm[--buckets[get_gray(im[--i])]] = i`, 1434–1437. -/
def place (nel : Nat) (g : Nat → Nat) : Nat → (Nat → Nat) → (Nat → Nat) → Option (Nat → Nat)
  | 0, _, p => some p
  | i + 1, b, p =>
    if b (g i) = 0 then none
    else if b (g i) - 1 < nel then place nel g i (upd b (g i) (b (g i) - 1)) (upd p (b (g i) - 1) i)
    else none

/-- The swaps of the second pass, 1440–1448: `k` of them from `i` on. -/
def swapLoop (nel : Nat) : Nat → Nat → (Nat → Nat) → Nat → Nat
  | 0, _, p => p
  | k + 1, i, p => swapLoop nel k (i + 1) (upd (upd p i (p (nel - 1 - i))) (nel - 1 - i) (p i))

/-- Sorting, 1397–1452; `fromMin` is `from_min_max[0]`, `p` what `perm` contains. -/
def sortPixels (nel : Nat) (g : Nat → Nat) (gm : Nat) (fromMin : Bool) (p : Nat → Nat) : Option (Nat → Nat) :=
  if gm = 0 ∨ fromMin = false then place nel g nel (cumLoop 255 1 (countLoop g nel 0 fun _ => 0)) p
  else some (swapLoop nel (nel / 2) 0 p)

/-! ### The forest -/

/-- `MserReg` of all pixels, and the counters.  `parent` is `none` for `MSER_VOID_NODE`; `hgt` is `none` if never written since
`malloc`; `undef` tells that a height was read that was never written.  Of `joins` only the number of entries is kept. -/
structure FS where
  parent : Nat → Option Nat
  sc : Nat → Nat
  area : Nat → Nat
  hgt : Nat → Option Int
  njoins : Nat
  ner : Nat
  undef : Bool

/-- First loop of `climb`, 1028–1054. -/
def climbUp : Nat → (Nat → Nat) → Nat → Nat → Option ((Nat → Nat) × Nat)
  | 0, _, _, _ => none
  | fuel + 1, sc, prev, idx =>
    if sc idx = idx then some (upd sc idx prev, idx) else climbUp fuel (upd sc idx prev) idx (sc idx)

/-- Second loop of `climb`, 1066–1094. -/
def climbDown : Nat → (Nat → Nat) → Nat → Nat → Option (Nat → Nat)
  | 0, _, _, _ => none
  | fuel + 1, sc, root, idx =>
    if sc idx = idx then some (upd sc idx root) else climbDown fuel (upd sc idx root) root (sc idx)

/-- `climb`, 1016–1098. -/
def climb (fuel : Nat) (sc : Nat → Nat) (idx : Nat) : Option ((Nat → Nat) × Nat) :=
  (climbUp fuel sc idx idx).bind fun r => (climbDown fuel r.1 r.2 r.2).map fun sc' => (sc', r.2)

/-- The neighbours in the order of the loop, 1747–1757: `(-1,-1)`, `(0,-1)`, …, `(1,1)`. -/
def offsets : List (Int × Int) := [(-1, -1), (0, -1), (1, -1), (-1, 0), (0, 0), (1, 0), (-1, 1), (0, 1), (1, 1)]

/-- Index of a neighbour if it is examined, 1530–1541, 1560–1590, 1608–1610 (without the test of `parent`): inside the image, different
from the pixel and, for `img_Connected_Type_4_Neibour`, at an index distance that is 1 or divisible by the width. -/
def look (conn4 : Bool) (w h idx : Nat) (d : Int × Int) : Option Nat :=
  let x : Int := d.1 + (idx % w : Nat)
  let y : Int := d.2 + (idx / w : Nat)
  let n : Int := x + y * w
  let off : Nat := (n - idx).natAbs
  if 0 ≤ x ∧ x < w ∧ 0 ≤ y ∧ y < h ∧ (conn4 = true → off = 1 ∨ off % w = 0) ∧ n ≠ idx then some n.toNat else none

/-- The examined neighbours of a pixel. -/
def nbs (conn4 : Bool) (w h idx : Nat) : List Nat := offsets.filterMap (look conn4 w h idx)

/-- The pixel becomes a root, 1504–1516. -/
def enter (s : FS) (idx : Nat) : FS :=
  { s with parent := upd s.parent idx (some idx), sc := upd s.sc idx idx, area := upd s.area idx 1, hgt := upd s.hgt idx (some 1) }

/-- The roots `r` and `nr` are different, 1690–1735; `val` is the gray value of the pixel. -/
def join (nel : Nat) (g : Nat → Nat) (val : Nat) (s : FS) (r nr : Nat) (hgt nhgt : Int) : Option FS :=
  if s.njoins < nel then
    if g nr = val ∧ hgt < nhgt then
      some { s with parent := upd s.parent r (some nr), sc := upd s.sc r nr, area := upd s.area nr (s.area nr + s.area r),
                    hgt := upd s.hgt nr (some (max nhgt (hgt + 1))), njoins := s.njoins + 1 }
    else
      some { s with parent := upd s.parent nr (some r), sc := upd s.sc nr r, area := upd s.area r (s.area r + s.area nr),
                    hgt := upd s.hgt r (some (max hgt (nhgt + 1))), njoins := s.njoins + 1,
                    ner := if g nr ≠ val then s.ner + 1 else s.ner }
  else none

/-- One neighbour `n` of the pixel `idx`, 1606–1738.  `n_hgt` is read from `r[0]`, for `nr_idx` is still 0 (1614–1618), and `hgt` from the
former root; `junk` is what is read where nothing was written. -/
def visit (nel : Nat) (g : Nat → Nat) (junk : Int) (idx : Nat) (st : FS × Nat) (n : Nat) : Option (FS × Nat) :=
  let s := st.1
  if s.parent n = none then some st
  else
    let hgt := (s.hgt st.2).getD junk
    let nhgt := (s.hgt 0).getD junk
    let s := { s with undef := s.undef || (s.hgt st.2).isNone || (s.hgt 0).isNone }
    (climb (nel + 1) s.sc idx).bind fun c =>
    (climb (nel + 1) c.1 n).bind fun c' =>
    let s := { s with sc := c'.1 }
    if c.2 = c'.2 then some (s, c.2) else (join nel g (g idx) s c.2 c'.2 hgt nhgt).map fun s' => (s', c.2)

/-- The loop over the neighbours, 1545–1759. -/
def visitAll (nel : Nat) (g : Nat → Nat) (junk : Int) (idx : Nat) : List Nat → FS × Nat → Option (FS × Nat)
  | [], st => some st
  | n :: l, st => (visit nel g junk idx st n).bind (visitAll nel g junk idx l)

/-- One pixel, 1494–1763. -/
def pixel (nel : Nat) (nb : Nat → List Nat) (g : Nat → Nat) (junk : Int) (s : FS) (idx : Nat) : Option FS :=
  (visitAll nel g junk idx (nb idx) (enter s idx, idx)).map Prod.fst

/-- All pixels in the order of `perm`. -/
def pixels (nel : Nat) (nb : Nat → List Nat) (g : Nat → Nat) (junk : Int) : List Nat → FS → Option FS
  | [], s => some s
  | i :: l, s => (pixel nel nb g junk s i).bind (pixels nel nb g junk l)

/-! ### The extremal regions -/

/-- `MserExtrReg` of all regions.  `erOf` is the field `shortcut` of the pixels after the extraction (`none` is `MSER_VOID_NODE`). -/
structure ES where
  ner : Nat
  index : Nat → Nat
  value : Nat → Nat
  area : Nat → Nat
  parent : Nat → Nat
  erOf : Nat → Option Nat

/-- Extraction of the extremal regions, 1845–1900; `cap` is the length of `er`. -/
def extrLoop (cap : Nat) (g : Nat → Nat) (s : FS) : List Nat → ES → Option ES
  | [], e => some e
  | idx :: l, e =>
    match s.parent idx with
    | none => none
    | some p =>
      if g idx < g p ∨ idx = p then
        if e.ner < cap then
          extrLoop cap g s l
            { ner := e.ner + 1, index := upd e.index e.ner idx, value := upd e.value e.ner (g idx), area := upd e.area e.ner (s.area idx),
              parent := upd e.parent e.ner e.ner, erOf := upd e.erOf idx (some e.ner) }
        else none
      else extrLoop cap g s l { e with erOf := upd e.erOf idx none }

/-- `do idx = r[idx].parent; while (r[idx].shortcut == MSER_VOID_NODE)`, 1919–1927, from `idx` on. -/
def upLoop (parent : Nat → Option Nat) (erOf : Nat → Option Nat) : Nat → Nat → Option Nat
  | 0, _ => none
  | fuel + 1, idx =>
    match parent idx with
    | none => none
    | some p =>
      match erOf p with
      | some k => some k
      | none => upLoop parent erOf fuel p

/-- Linking of the first `k` regions, 1915–1933. -/
def linkLoop (nel : Nat) (s : FS) (e : ES) : Nat → Option (Nat → Nat)
  | 0 => some e.parent
  | k + 1 => (linkLoop nel s e k).bind fun par => (upLoop s.parent e.erOf (nel + 1) (e.index k)).map fun q => upd par k q

/-- What the buffers contain: `perm`, the pixels, and `er` with its length `rer` (1811–1824). -/
structure Mem where
  perm : Nat → Nat
  r : FS
  er : ES
  rer : Nat

/-- `mser_process`, 1340–1936. -/
def process (nel : Nat) (nb : Nat → List Nat) (g : Nat → Nat) (gm : Nat) (fromMin : Bool) (junk : Int) (m : Mem) : Option Mem :=
  (sortPixels nel g gm fromMin m.perm).bind fun perm =>
  let order := (List.range nel).map perm
  (pixels nel nb g junk order { m.r with parent := fun _ => none, njoins := 0, ner := 0 }).bind fun s =>
  let n := s.ner + 1
  let cap := if m.rer < n then n else m.rer
  (extrLoop cap g s order { m.er with ner := 0 }).bind fun e =>
  (linkLoop nel s e e.ner).map fun par =>
  { perm := perm, r := s, er := { e with parent := par }, rer := cap }

/-! ### Recognition -/

/-- The configuration, 2365–2380, with the rounding to `f32`. -/
structure Cfg where
  delta : Int
  minPoint : Int
  ratio : ℚ
  stable : ℚ
  dup : ℚ
  nms : ℚ
  r32 : ℚ → ℚ

/-- `while (1)` of the search for the top, 2007–2031. -/
def topLoop (e : ES) (topVal : Int) : Nat → Nat → Option Nat
  | 0, _ => none
  | fuel + 1, top =>
    if e.parent top = top ∨ topVal < (e.value (e.parent top) : Int) then some top else topLoop e topVal fuel (e.parent top)

/-- Variation of the first `k` regions, 1997–2078: the fields `shortcut` (initially the region itself, 1931) and `variation`. -/
def varLoop (c : Cfg) (e : ES) : Nat → Option ((Nat → Nat) × (Nat → ℚ))
  | 0 => some (fun i => i, fun _ => 0)
  | i + 1 => (varLoop c e i).bind fun sv =>
    (topLoop e ((e.value i : Int) + c.delta) (e.ner + 1) (sv.1 i)).map fun top =>
    let v : ℚ := if 0 < c.delta then c.r32 (c.r32 (((e.area top : Int) - (e.area i : Int) : Int) : ℚ) / c.r32 (e.area i : ℚ)) else -1
    (upd sv.1 (e.parent i) (max top (sv.1 (e.parent i))), upd sv.2 i v)

/-- Who loses, 2100–2141. -/
def loser (c : Cfg) (e : ES) (var : Nat → ℚ) (i : Nat) : Option Nat :=
  if e.value i + 1 < e.value (e.parent i) then none
  else if c.r32 (var i - var (e.parent i)) < -c.nms then some (e.parent i)
  else if c.r32 (var (e.parent i) - var i) < -c.nms then some i
  else none

/-- The region becomes not maximally stable, 2144–2152; the number `nmer` of the stable ones is counted down. -/
def drop (st : (Nat → Bool) × Int) (i : Nat) : (Nat → Bool) × Int :=
  if st.1 i = true then (upd st.1 i false, st.2 - 1) else st

/-- Selection of maximally stable regions, 2092–2156, the first `k` regions. -/
def nmsLoop (c : Cfg) (e : ES) (var : Nat → ℚ) : Nat → (Nat → Bool) × Int
  | 0 => (fun _ => true, e.ner)
  | i + 1 =>
    match loser c e var i with
    | none => nmsLoop c e var i
    | some j => drop (nmsLoop c e var i) j

/-- `max_area`, 2174. -/
def maxArea (c : Cfg) (nel : Nat) : ℚ := c.r32 (c.ratio * c.r32 (nel : ℚ))

/-- `min_area`, 2370 and 2176. -/
def minArea (c : Cfg) (nel : Nat) : ℚ := c.r32 (c.r32 (c.r32 (c.minPoint : ℚ) / c.r32 (nel : ℚ)) * c.r32 (nel : ℚ))

/-- The stable region above, or the root, 2248–2258. -/
def stableLoop (e : ES) (st : Nat → Bool) : Nat → Nat → Option Nat
  | 0, _ => none
  | fuel + 1, p => if st p = true ∨ e.parent p = p then some p else stableLoop e st fuel (e.parent p)

/-- `div`, 2266–2272. -/
def diversity (c : Cfg) (a p : Nat) : ℚ := c.r32 (c.r32 (((p : Int) - (a : Int) : Int) : ℚ) / c.r32 (p : ℚ))

/-- Whether a maximally stable region is removed, 2194–2290. -/
def removed (c : Cfg) (nel : Nat) (e : ES) (var : Nat → ℚ) (st : Nat → Bool) (i : Nat) : Option Bool :=
  if c.stable ≤ var i then some true
  else if maxArea c nel < c.r32 (e.area i : ℚ) then some true
  else if c.r32 (e.area i : ℚ) < minArea c nel then some true
  else if c.dup < 1 ∧ 0 < c.dup ∧ e.parent i ≠ i then
    (stableLoop e st (e.ner + 1) (e.parent i)).map fun p => decide (diversity c (e.area i) (e.area p) < c.dup)
  else some false

/-- The filter, 2184–2296, for the regions `k - 1, …, 0`. -/
def filterLoop (c : Cfg) (nel : Nat) (e : ES) (var : Nat → ℚ) : Nat → (Nat → Bool) × Int → Option ((Nat → Bool) × Int)
  | 0, st => some st
  | i + 1, st =>
    if st.1 i = true then
      (removed c nel e var st.1 i).bind fun b => filterLoop c nel e var i (if b = true then (upd st.1 i false, st.2 - 1) else st)
    else filterLoop c nel e var i st

/-- `mser_recogniztion`, 1938–2350: the pixels of the stable regions.  `mer` has at least `nmer` entries (2322–2330); writing more than
that is the outcome `none` (if it has more, from an earlier call, nothing is written behind `nmer` either). -/
def recognize (c : Cfg) (nel : Nat) (e : ES) : Option (List Nat) :=
  (varLoop c e e.ner).bind fun sv =>
  (filterLoop c nel e sv.2 e.ner (if 0 ≤ c.nms then nmsLoop c e sv.2 e.ner else (fun _ => true, e.ner))).bind fun st =>
  let l := ((List.range e.ner).filter fun i => st.1 i).map e.index
  if (l.length : Int) = st.2 then some l else none

/-- A reported region: `m_gray_level` and `m_size`.  The fields `m_rect` and `m_points` are not written. -/
structure Rep where
  gray : Nat
  size : Nat
deriving DecidableEq, Repr

/-- `extract_pixel`, 2402–2418. -/
def report (gm : Nat) (e : ES) : List Nat → Option (List Rep)
  | [] => some []
  | idx :: l =>
    match e.erOf idx with
    | none => none
    | some k => if k < e.ner then (report gm e l).map fun t => { gray := e.value k ^^^ gm, size := e.area k } :: t else none

/-- One pass of `img_mser_base::extract` (img_mser_base.cpp 89–110) with the detector on a `w × h` image; `m` is what the buffers contain. -/
def pass (conn4 : Bool) (w h : Nat) (img : Nat → Nat → Nat) (gm : Nat) (fromMin : Bool) (c : Cfg) (junk : Int) (m : Mem) :
    Option (List Rep × Mem) :=
  (process (w * h) (nbs conn4 w h) (fun i => img (i % w) (i / w) ^^^ gm) gm fromMin junk m).bind fun m' =>
  (recognize c (w * h) m'.er).bind fun l => (report gm m'.er l).map fun t => (t, m')

end Verif.VlFeat
