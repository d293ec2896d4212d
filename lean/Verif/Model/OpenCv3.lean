import Verif.Model.OpenCv
import Verif.Model.FloodMem

/-!
# Model: the OpenCV 3 detector

Models `img_opencv3_mser`, /repo/basicimg/src/img_opencv3_mser.cpp (line numbers without a file name refer to it) and
/repo/basicimg/include/img_opencv3_mser.h.  Flooding, recognition and extraction are one pass: `extract_pixel`.

Simplifications (each is a change of representation, not of control flow):
* a `Pixel` is two functions: `dir` (bits 29–31) and `next` (bits 0–28);
* a pointer into `m_pixbuf`, `m_heapbuf` or `m_histbuf` is an index, a null pointer is `none`;
* the list `child_`, `child_->next_`, … of a history is the list `kids`; a history that is in no such list has `next_ = 0`;
* timing, logging, `m_channel_total_pixel_number` and the assertions, which only print, are left out;
* `float` is a rational with a rounding function; the values of `f32` parameters are exact in `double`.
-/

namespace Verif.OpenCv3

open Function (update)
open Verif.Flood (Patch)
open Verif.FloodMem (offset)
open Verif.Recog (Cfg)
open Verif.Extract (Rect)

/-! ### Data -/

/-- `CompHistory` (img_opencv3_mser.h 56–78). -/
structure Hist where
  kids : List Nat
  parent : Option Nat
  val : Nat
  size : Nat
  var : ℚ
  head : Nat
  checked : Bool

/-- `ConnectedComp` (img_opencv3_mser.h 80–107). -/
structure Comp where
  head : Nat
  tail : Nat
  hist : Option Nat
  gray : Nat
  size : Nat

/-- One delivered `img_mser` (84–108): `m_size` is the number of points; `m_gray_level` keeps the 0 of the constructor
(img_mser_base.h 24).  `idx` is no member of it: the history it was made from. -/
structure Rec3 where
  gray : Nat
  points : List (Nat × Nat)
  rect : Rect
  idx : Nat

/-- What the functions on histories write: the histories and the list of regions. -/
structure TS where
  hists : Nat → Hist
  out : List Rec3

/-- What a pass reads but never writes; `area` is the length of `m_pixbuf` and `m_histbuf`, `m_heapbuf` has 256 cells more
(229–232). -/
structure Env where
  P : Patch
  cfg : Cfg
  step : Nat
  area : Nat

/-- `FLT_MAX`. -/
def fltMax : ℚ := 2 ^ 128 - 2 ^ 104

/-! ### The functions on histories -/

/-- The first `n` pixels of a list (95). -/
def readPts (next : Nat → Nat) : Nat → Nat → List Nat
  | 0, _ => []
  | n + 1, p => p :: readPts next n (next p)

/-- The region made from a history (83–108). -/
def recOf (E : Env) (next : Nat → Nat) (h : Hist) (i : Nat) : Rec3 :=
  let l := (readPts next h.size h.head).map fun p => (p - p / E.step * E.step, p / E.step)
  { gray := 0, points := l, rect := OpenCv.rectOf l, idx := i }

/-- The test 66–81. -/
def wanted (E : Env) (H : Nat → Hist) (i : Nat) : Bool :=
  let h := H i
  if (h.size : Int) < E.cfg.minPoint ∨ E.cfg.maxPoint < (h.size : Int) ∨ h.var < 0 ∨ E.cfg.stable < h.var then false
  else if 0 ≤ E.cfg.nms then
    if h.kids.any (fun c => decide (0 ≤ (H c).var) && decide (h.val = (H c).val + 1)
        && decide (E.cfg.nms < E.cfg.r32 (h.var - (H c).var))) then false
    else
      match h.parent with
      | none => true
      | some p => !(decide (0 ≤ (H p).var) && decide (h.val + 1 = (H p).val)
          && decide (E.cfg.nms < E.cfg.r32 (h.var - (H p).var)))
  else true

/-- `checkAndCapture` (60–109). -/
def capture (E : Env) (next : Nat → Nat) (t : TS) (i : Nat) : TS :=
  if (t.hists i).checked then t
  else
    { hists := update t.hists i { t.hists i with checked := true }
      out := if wanted E t.hists i then t.out ++ [recOf E next (t.hists i) i] else t.out }

/-- The loop 31: up from `j` until `i` or until the level is high enough; `none` is the use of a null pointer (or too small a bound
`f`). -/
def up0 (H : Nat → Hist) (d : Int) (i : Nat) : Nat → Nat → Option Nat
  | 0, _ => none
  | f + 1, j =>
    if j ≠ i ∧ ((H j).val : Int) < ((H i).val : Int) - d then
      match (H j).parent with
      | none => none
      | some k => up0 H d i f k
    else some j

/-- The loop 36. -/
def down (H : Nat → Hist) (d : Int) (v : Int) : Nat → Nat → Option Nat
  | 0, _ => none
  | f + 1, j =>
    match (H j).kids with
    | [] => some j
    | k :: _ => if v - d ≤ ((H k).val : Int) then down H d v f k else some j

/-- The loop 40. -/
def up1 (H : Nat → Hist) (d : Int) (v : Int) : Nat → Nat → Option Nat
  | 0, _ => none
  | f + 1, j =>
    match (H j).parent with
    | none => some j
    | some k => if ((H k).val : Int) ≤ v + d then up1 H d v f k else some j

/-- The start of the search for `h1` (28). -/
def startH1 (H : Nat → Hist) (i : Nat) : Option Nat → Nat
  | none => i
  | some b => if (H i).size < (H b).size then b else i

/-- The search for `h0` (28–38). -/
def findH0 (H : Nat → Hist) (d : Int) (i : Nat) : Option Nat → Option Nat
  | some a => up0 H d i 257 a
  | none => down H d (H i).val 257 i

/-- The loop 15–21 over the children; `go` is the recursive call.  The result contains whether line 20 returns, and `h0_`, `h1_`. -/
def kidsLoop (go : Nat → TS → Option (TS × Option Nat × Option Nat)) :
    List Nat → Bool → TS → Option Nat × Option Nat → Option (TS × Bool × (Option Nat × Option Nat))
  | [], _, t, h => some (t, false, h)
  | c :: cs, first, t, h =>
    (if (t.hists c).var < 0 then
        (go c t).map fun r => (r.1, if first then r.2 else h)
      else some (t, h)).bind fun r =>
    if (r.1.hists c).var < 0 then some (r.1, true, r.2)
    else kidsLoop go cs false r.1 r.2

/-- `updateTree` (5–58); the result contains what is stored in `*_h0` and `*_h1`, `none` if nothing is stored.  `f` bounds the depth
of the recursion. -/
def updateTree (E : Env) (next : Nat → Nat) (fin : Bool) : Nat → Nat → TS → Option (TS × Option Nat × Option Nat)
  | 0, _, _ => none
  | f + 1, i, t =>
    if 0 ≤ (t.hists i).var then some (t, none, none)
    else
      (if E.cfg.minPoint ≤ ((t.hists i).size : Int)
        then kidsLoop (updateTree E next fin f) (t.hists i).kids true t (none, none)
        else some (t, false, (none, none))).bind fun r =>
      if r.2.1 then some (r.1, none, none)
      else
        let t := r.1
        let H := t.hists
        (findH0 H E.cfg.delta i r.2.2.1).bind fun h0 =>
        (up1 H E.cfg.delta (H i).val 257 (startH1 H i r.2.2.2)).bind fun h1 =>
        if fin = false ∧ (H h1).parent = none ∧ ((H h1).val : Int) < (H i).val + E.cfg.delta then                -- 48
          some (t, some h0, some h1)
        else if (H i).size = 0 then none
        else
          let v := E.cfg.r32 (E.cfg.r32 ((H h1).size - (H h0).size) / E.cfg.r32 (H i).size)
          let t := { t with hists := update H i { H i with var := v } }
          let t := (H i).kids.foldl (capture E next) t
          let t := if fin = true ∧ (H i).parent = none then capture E next t i else t
          some (t, some h0, some h1)

/-! ### The functions on components -/

/-- `init` (img_opencv3_mser.h 87–93). -/
def initComp (g : Nat) : Comp := { head := 0, tail := 0, hist := none, gray := g, size := 0 }

/-- The history of component `c` at its own level, if it has one (117). -/
def ownHist (H : Nat → Hist) (c : Comp) : Option Nat :=
  match c.hist with
  | none => none
  | some i => if (H i).val = c.gray then some i else none

/-- Lines 134–143: the fields assigned in both cases. -/
def fillHist (E : Env) (c : Comp) (h : Hist) : Hist :=
  { h with
    val := c.gray
    size := c.size
    head := c.head
    var := if E.cfg.minPoint ≤ (c.size : Int) then -1 else fltMax
    checked := if E.cfg.minPoint ≤ (c.size : Int) then false else true }

/-- Lines 128–131: the old history of the component gets the parent `n`. -/
def setPar (H : Nat → Hist) (n : Nat) : Option Nat → Nat → Hist
  | none => H
  | some j => update H j { H j with parent := some n }

/-- Lines 116–143: the history of `c`, new or its own, with the number of histories after it; `none` is a write behind `m_histbuf`. -/
def putHist (E : Env) (c : Comp) (H : Nat → Hist) (n : Nat) : Option (Nat × (Nat → Hist) × Nat) :=
  match ownHist H c with
  | some i => some (i, update H i (fillHist E c (H i)), n)
  | none =>
    if n < E.area then
      let H' := setPar H n c.hist
      some (n, update H' n (fillHist E c { H' n with parent := none, kids := c.hist.toList }), n + 1)
    else none

/-- `growHistory` (111–151). -/
def growHistory (E : Env) (next : Nat → Nat) (c : Comp) (t : TS) (n g : Nat) (fin : Bool) : Option (Comp × TS × Nat) :=
  let g := if g < c.gray then c.gray else g
  (putHist E c t.hists n).bind fun r =>
  let c := { c with gray := g, hist := some r.1 }
  let t := { t with hists := r.2.1 }
  if (t.hists r.1).val ≠ g then
    (updateTree E next fin 257 r.1 t).map fun u => (c, u.1, r.2.2)
  else some (c, t, r.2.2)

/-- Lines 179–201: `h2` becomes a child of `h`. -/
def linkHist (E : Env) (H : Nat → Hist) (h h2 : Nat) : Nat → Hist :=
  match (H h).kids with
  | h1 :: ks =>
    if (H h2).size < (H h1).size then
      if E.cfg.minPoint ≤ ((H h2).size : Int) then
        update (update H h { H h with kids := h1 :: h2 :: ks }) h2 { H h2 with parent := some h }
      else H
    else
      update (update H h { H h with kids := h2 :: if E.cfg.minPoint ≤ ((H h1).size : Int) then h1 :: ks else [] })
        h2 { H h2 with parent := some h }
  | [] => update (update H h { H h with kids := [h2] }) h2 { H h2 with parent := some h }

/-- Lines 179–201 after the exchange in line 158: `comp2` is `this`, so `h2` is the history assigned in line 176, that is `h` itself.  The
sibling pointer of `h`, which line 197 leaves as it was, is taken to be null. -/
def linkSelf (E : Env) (H : Nat → Hist) (h : Nat) : Nat → Hist :=
  match (H h).kids with
  | h1 :: ks =>
    if (H h).size < (H h1).size then
      if E.cfg.minPoint ≤ ((H h).size : Int) then update H h { H h with kids := h1 :: h :: ks, parent := some h } else H
    else update H h { H h with kids := h :: (if E.cfg.minPoint ≤ ((H h1).size : Int) then h1 :: ks else []), parent := some h }
  | [] => update H h { H h with kids := [h], parent := some h }

/-- `merge` (154–202) when the component `d = *this` has the lower gray level: `comp1` and `comp2` are exchanged (157–158), and as `comp2`
is `this`, the assignments to the members (160, 171, 176) change it. -/
def mergeSwap (E : Env) (d c : Comp) (next : Nat → Nat) (t : TS) (n : Nat) : Option (Comp × (Nat → Nat) × TS × Nat) :=
  (growHistory E next c t n c.gray false).bind fun r1 =>
  (growHistory E next { d with gray := c.gray } r1.2.1 r1.2.2 c.gray false).bind fun r2 =>
  match r1.1.hist with
  | some h =>
    let a := r1.1
    let b := r2.1
    let e := { head := if a.size = 0 then b.head else a.head
               tail := b.tail, hist := some h, gray := c.gray, size := a.size + b.size }
    let next := if a.size = 0 then next else update next a.tail a.head
    some (e, next, { r2.2.1 with hists := linkSelf E r2.2.1.hists h }, r2.2.2)
  | none => none

/-- `comptr->merge(comptr, comptr + 1, …)` (154–202): `d` is `comptr`, `c` the component above it. -/
def merge (E : Env) (d c : Comp) (next : Nat → Nat) (t : TS) (n : Nat) : Option (Comp × (Nat → Nat) × TS × Nat) :=
  if d.gray < c.gray then mergeSwap E d c next t n
  else
    (growHistory E next d t n d.gray false).bind fun r1 =>
    (growHistory E next c r1.2.1 r1.2.2 d.gray false).bind fun r2 =>
    match r1.1.hist, r2.1.hist with
    | some h, some h2 =>
      let a := r1.1
      let b := r2.1
      let e := { head := if a.size = 0 then b.head else a.head
                 tail := b.tail, hist := some h, gray := d.gray, size := a.size + b.size }
      let next := if a.size = 0 then next else update next a.tail b.head
      some (e, next, { r2.2.1 with hists := linkHist E r2.2.1.hists h h2 }, r2.2.2)
    | _, _ => none

/-! ### The pass -/

/-- The state of `extract_pixel`; `top l` is `m_heap_start[l]`. -/
structure St where
  dir : Nat → Nat
  next : Nat → Nat
  heap : Nat → Option Nat
  top : Nat → Nat
  comps : List Comp
  ts : TS
  nhist : Nat
  cur : Nat
  curGray : Nat
  nbr : Nat

/-- Result of one step. -/
inductive Out where
  | next (s : St)
  | done (s : St)
  | ub

/-- One iteration of the tour (280–306). -/
def tour (E : Env) (s : St) : Out :=
  let q := E.P.nb s.cur s.nbr
  if q < E.area then
    if s.dir q = 0 then
      let dir := update s.dir q 1
      let next := update s.next q 0
      let ng := E.P.gray q
      if ng < s.curGray then
        let a := s.top s.curGray + 1
        if a < E.area + 256 ∧ s.comps.length < E.P.cap then
          .next { s with
            dir := update dir s.cur (s.nbr + 1)
            next := update next s.cur 0
            heap := update s.heap a (some s.cur)
            top := update s.top s.curGray a
            comps := initComp ng :: s.comps
            cur := q
            curGray := ng
            nbr := 1 }
        else .ub
      else
        let a := s.top ng + 1
        if a < E.area + 256 then
          .next { s with dir := dir, next := next, heap := update s.heap a (some q), top := update s.top ng a, nbr := s.nbr + 1 }
        else .ub
    else .next { s with nbr := s.nbr + 1 }
  else .ub

/-- The scan 328–332 over `n` levels from `l`; the outer `none` is a read outside `m_heapbuf`. -/
def scan (E : Env) (heap : Nat → Option Nat) (top : Nat → Nat) : Nat → Nat → Option (Option Nat)
  | 0, _ => some none
  | n + 1, l =>
    if top l < E.area + 256 then
      if (heap (top l)).isSome then some (some l) else scan E heap top n (l + 1)
    else none

/-- Lines 313–319: the current pixel is appended to the list of the component. -/
def append (p : Nat) (c : Comp) (next : Nat → Nat) : Comp × (Nat → Nat) :=
  if c.tail ≠ 0 then ({ c with tail := p, size := c.size + 1 }, update next c.tail p)
  else ({ c with head := p, tail := p, size := c.size + 1 }, next)

/-- The last loop (356–359). -/
def closeAll (E : Env) (next : Nat → Nat) : List Comp → TS → Nat → Option (TS × Nat)
  | [], _, _ => none
  | c :: rest, t, n =>
    if c.gray ≠ 256 then (growHistory E next c t n 256 true).bind fun r => closeAll E next rest r.2.1 r.2.2
    else some (t, n)

/-- The rest of the loop body (308–353), and what follows the loop. -/
def finish (E : Env) (s : St) : Out :=
  match s.comps with
  | c :: d :: rest =>
    let dir := update s.dir s.cur s.nbr
    let (c, next) := append s.cur c (update s.next s.cur 0)
    if s.top s.curGray < E.area + 256 then
      match s.heap (s.top s.curGray) with
      | some p =>
        .next { s with dir := dir, next := next, comps := c :: d :: rest, cur := p
                       top := update s.top s.curGray (s.top s.curGray - 1)
                       curGray := E.P.gray p, nbr := dir p }
      | none =>
        match scan E s.heap s.top (255 - s.curGray) (s.curGray + 1) with
        | none => .ub
        | some none =>
          match closeAll E next (c :: d :: rest) s.ts s.nhist with
          | none => .ub
          | some (ts, n) => .done { s with dir := dir, next := next, comps := [d], ts := ts, nhist := n }
        | some (some l) =>
          match s.heap (s.top l) with
          | none => .ub
          | some p =>
            let top := update s.top l (s.top l - 1)
            if l < d.gray then
              match growHistory E next c s.ts s.nhist l false with
              | none => .ub
              | some (c, ts, n) =>
                .next { dir := dir, next := next, heap := s.heap, top := top, comps := c :: d :: rest, ts := ts, nhist := n
                        cur := p, curGray := E.P.gray p, nbr := dir p }
            else
              match merge E d c next s.ts s.nhist with
              | none => .ub
              | some (e, next, ts, n) =>
                .next { dir := dir, next := next, heap := s.heap, top := top, comps := e :: rest, ts := ts, nhist := n
                        cur := p, curGray := E.P.gray p, nbr := dir p }
    else .ub
  | _ => .ub

/-- One elementary step of the loop 273–354. -/
def step (E : Env) (s : St) : Out :=
  if s.nbr ≤ E.P.nd then tour E s else finish E s

/-- Run at most `n` steps; `next` means the step budget was used up. -/
def run (E : Env) : Nat → St → Out
  | 0, s => .next s
  | n + 1, s =>
    match step E s with
    | .next s' => run E n s'
    | o => o

/-! ### The image -/

/-- `dir[]` (272). -/
def nb (step i : Nat) : Nat → Nat
  | 1 => i + 1
  | 2 => i + step
  | 3 => i - 1
  | 4 => i - step
  | _ => i

/-- Cell `i` is not in the first or last row or column. -/
def inner (cols rows i : Nat) : Bool :=
  decide (1 ≤ i % cols) && decide (i % cols + 1 < cols) && decide (1 ≤ i / cols) && decide (i / cols + 1 < rows)

/-- The image as the pass sees it: `getGray` (img_opencv3_mser.h 26–31), `comp[257]` (254), start at `ptr0[step + 1]` (252). -/
def patch (cols rows : Nat) (img : Nat → Nat → Nat) (gm : Nat) : Patch where
  nd := 4
  nb := nb cols
  gray := fun i => img (i % cols) (i / cols) ^^^ gm
  start := cols + 1
  cap := 257
  px := (Finset.range (cols * rows)).filter fun i => inner cols rows i

/-- The environment of a pass. -/
def env (cols rows : Nat) (img : Nat → Nat → Nat) (gm : Nat) (cfg : Cfg) : Env where
  P := patch cols rows img gm
  cfg := cfg
  step := cols
  area := cols * rows

/-- The members that keep their content between two passes. -/
structure Mem where
  dir : Nat → Nat
  next : Nat → Nat
  heap : Nat → Option Nat
  hists : Nat → Hist
  levels : Nat → Nat

/-- The counts of line 391: how many inner pixels of the image have the value `v`. -/
def counts (cols rows : Nat) (img : Nat → Nat → Nat) (v : Nat) : Nat :=
  ((Finset.range (cols * rows)).filter fun i => inner cols rows i ∧ img (i % cols) (i / cols) = v).card

/-- `preprocess` (364–423) for the gray mask `gm`; `fromMin` is `m_from_min_max[0]`.  Returned with the stack pointers. -/
def preprocess (cols rows : Nat) (img : Nat → Nat → Nat) (gm : Nat) (fromMin : Bool) (m : Mem) : Mem × (Nat → Nat) :=
  let m :=
    if gm = 0 ∨ fromMin = false then
      { m with
        levels := counts cols rows img
        dir := fun i => if inner cols rows i then 0 else if i < cols * rows then 5 else m.dir i
        next := fun i => if i < cols * rows then 0 else m.next i }
    else
      { m with
        levels := FloodMem.reverseLevels m.levels
        dir := fun i => if i < cols * rows ∧ inner cols rows i then 0 else m.dir i
        next := fun i => if i < cols * rows ∧ inner cols rows i then 0 else m.next i }
  ({ m with heap := fun a => if a ∈ (List.range 256).map (offset m.levels) then none else m.heap a }, offset m.levels)

/-- The state at the head of the loop (250–271). -/
def start (E : Env) (m : Mem) (top : Nat → Nat) : St where
  dir := update m.dir E.P.start 1
  next := m.next
  heap := m.heap
  top := top
  comps := [initComp (E.P.gray E.P.start), initComp 256]
  ts := { hists := m.hists, out := [] }
  nhist := 0
  cur := E.P.start
  curGray := E.P.gray E.P.start
  nbr := 1

/-- `extract_pixel` (245–362); `n` bounds the steps. -/
def pass (cols rows : Nat) (img : Nat → Nat → Nat) (gm : Nat) (fromMin : Bool) (cfg : Cfg) (m : Mem) (n : Nat) : Out :=
  let E := env cols rows img gm cfg
  if cols + 1 < E.area then
    let r := preprocess cols rows img gm fromMin m
    run E n (start E r.1 r.2)
  else .ub

/-- What a pass leaves in the members. -/
def memOf (levels : Nat → Nat) (s : St) : Mem :=
  { dir := s.dir, next := s.next, heap := s.heap, hists := s.ts.hists, levels := levels }

end Verif.OpenCv3
