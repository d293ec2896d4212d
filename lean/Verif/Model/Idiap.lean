import Verif.Model.Flood

/-!
# Model: `img_idiap_mser`

/repo/basicimg/src/img_idiap_mser.cpp.  Simplifications:
* a pointer into `pool_` is an index, so moving the pool (`doublePool` 567–629) only changes its size;
* the list of children (`child_`, `next_`) is a list, the first child first;
* `boundaryPixels[l]` is a list with the last element first, an element `(pixel << 4) | edge` a pair;
* `m_accessible` and `bits` are read by index; the neighbours of a pixel are those of the patch (320–362):
  a neighbour outside of the image is the pixel itself;
* `moments_` are left out (sums over the pixels, read in lines that are commented out only).
-/

namespace Verif.Idiap

open Function (update)
open Verif.Flood (Patch)

/-- `mser_region` (img_idiap_mser.h 19–66, constructor img_idiap_mser.cpp 23–28). -/
structure Reg where
  level : Nat
  pixel : Nat
  area : Nat
  parent : Option Nat
  children : List Nat

/-- Local state of `extract_pixel` and `pool_`, `poolIndex_`, `m_accessible`. -/
structure St where
  acc : Nat → Bool
  heap : Nat → List (Nat × Nat)
  prio : Nat
  stack : List Nat
  pool : Nat → Reg
  used : Nat
  room : Nat
  cur : Nat
  edge : Nat
  lvl : Nat

/-- `ub`: an access outside of an array or an empty vector. -/
inductive Out where
  | next (s : St)
  | done (s : St)
  | ub

/-- `regionStack.push_back(new (&pool_[poolIndex_++]) mser_region(level, pixel))` with the growing of the pool behind it
(img_idiap_mser.cpp 304–310, 526–531). -/
def place (s : St) (level pixel : Nat) : Option St :=
  if s.used < s.room then
    some { s with
      pool := update s.pool s.used ⟨level, pixel, 0, none, []⟩
      stack := s.used :: s.stack
      used := s.used + 1
      room := if s.used + 1 = s.room then 2 * s.room else s.room }
  else none

/-- `merge` (img_idiap_mser.cpp 50–86): `top` becomes a child of `d`. -/
def merge (pool : Nat → Reg) (d top : Nat) : Nat → Reg :=
  update (update pool d { pool d with area := (pool d).area + (pool top).area, children := top :: (pool d).children }) top
    { pool top with parent := some d }

/-- `processStack` (img_idiap_mser.cpp 500–563) on the stack of `s`.  `none`: `back()` of an empty vector, or outside of the pool. -/
def processStack (l pixel : Nat) : List Nat → St → Option St
  | top :: d :: rest, s =>
    if l < (s.pool d).level then
      (place { s with stack := d :: rest } l pixel).map fun s' => { s' with pool := merge s'.pool s.used top }
    else
      let s' := { s with stack := d :: rest, pool := merge s.pool d top }
      if (s'.pool d).level < l then processStack l pixel (d :: rest) s' else some s'
  | _, _ => none

/-- `while (boundaryPixels[priority].empty() && (priority < 256)) ++priority` (img_idiap_mser.cpp 435–437) for `n` levels from `l`
on.  `none`: `boundaryPixels[256]` is read, which does not exist.  With `fixed` the two conditions are exchanged. -/
def scanUp (fixed : Bool) (heap : Nat → List (Nat × Nat)) : Nat → Nat → Option Nat
  | 0, l => if fixed then some l else none
  | n + 1, l => if heap l = [] then scanUp fixed heap n (l + 1) else some l

/-- One round of the loop over the edges (img_idiap_mser.cpp 318–409). -/
def tour (P : Patch) (s : St) : Out :=
  let q := P.nb s.cur (s.edge + 1)
  if q ≠ s.cur ∧ s.acc q = false then
    let ng := P.gray q
    if s.lvl ≤ ng then
      .next { s with
        acc := update s.acc q true
        heap := update s.heap ng ((q, 0) :: s.heap ng)
        prio := if ng < s.prio then ng else s.prio
        edge := s.edge + 1 }
    else
      match place { s with
        acc := update s.acc q true
        heap := update s.heap s.lvl ((s.cur, s.edge + 1) :: s.heap s.lvl)
        prio := if s.lvl < s.prio then s.lvl else s.prio
        cur := q
        edge := 0
        lvl := ng } ng q with
      | none => .ub
      | some s' => .next s'
  else .next { s with edge := s.edge + 1 }

/-- The rest of the loop (img_idiap_mser.cpp 412–450). -/
def finish (fixed : Bool) (P : Patch) (s : St) : Out :=
  match s.stack with
  | [] => .ub
  | top :: _ =>
    let pool := update s.pool top { s.pool top with area := (s.pool top).area + 1 }
    if s.prio = 256 then .done { s with pool := pool }
    else
      match s.heap s.prio with
      | [] => .ub
      | (p, e) :: ps =>
        let heap := update s.heap s.prio ps
        match scanUp fixed heap (256 - s.prio) s.prio with
        | none => .ub
        | some l =>
          let s' := { s with pool := pool, heap := heap, prio := l, cur := p, edge := e }
          if P.gray p ≠ s.lvl then
            match processStack (P.gray p) p s'.stack { s' with lvl := P.gray p } with
            | none => .ub
            | some s'' => .next s''
          else .next s'

/-- One step of the loop (img_idiap_mser.cpp 312–452). -/
def step (fixed : Bool) (P : Patch) (s : St) : Out := if s.edge < P.nd then tour P s else finish fixed P s

/-- At most `n` steps; `next`: not yet ended. -/
def run (fixed : Bool) (P : Patch) : Nat → St → Out
  | 0, s => .next s
  | n + 1, s =>
    match step fixed P s with
    | .next s' => run fixed P n s'
    | o => o

/-- The state at the first time in the loop (img_idiap_mser.cpp 278–310), with `poolIndex_ = 0`, `acc` as `m_accessible`, and a pool
of `room ≥ 256` regions that hold anything. -/
def init (P : Patch) (acc : Nat → Bool) (pool : Nat → Reg) (room : Nat) : St where
  acc := update acc P.start true
  heap := fun _ => []
  prio := 256
  stack := [1, 0]
  pool := update (update pool 0 ⟨256, 0, 0, none, []⟩) 1 ⟨P.gray P.start, P.start, 0, none, []⟩
  used := 2
  room := room
  cur := P.start
  edge := 0
  lvl := P.gray P.start

/-- The neighbour of pixel `p` in column `x` and row `y` in direction `k - 1` of eight (img_idiap_mser.cpp 320–344). -/
def neighbour8 (w h x y p : Nat) : Nat → Nat
  | 1 => if x < w - 1 then p + 1 else p
  | 2 => if x < w - 1 ∧ y > 0 then p - w + 1 else p
  | 3 => if y > 0 then p - w else p
  | 4 => if x > 0 ∧ y > 0 then p - w - 1 else p
  | 5 => if x > 0 then p - 1 else p
  | 6 => if x > 0 ∧ y < h - 1 then p + w - 1 else p
  | 7 => if y < h - 1 then p + w else p
  | _ => if x < w - 1 ∧ y < h - 1 then p + w + 1 else p

/-- The same of four (img_idiap_mser.cpp 345–362). -/
def neighbour4 (w h x y p : Nat) : Nat → Nat
  | 1 => if x < w - 1 then p + 1 else p
  | 2 => if y < h - 1 then p + w else p
  | 3 => if x > 0 then p - 1 else p
  | _ => if y > 0 then p - w else p

/-- The neighbour of pixel `p` (img_idiap_mser.cpp 315–362). -/
def neighbour (w h : Nat) (eight : Bool) (p k : Nat) : Nat :=
  if eight then neighbour8 w h (p % w) (p / w) p k else neighbour4 w h (p % w) (p / w) p k

/-- The image of a pass: pixel `y * width + x`, values with `get_gray` (img_idiap_mser.cpp 285).  The size of the stack is not
limited (`regionStack` is a vector). -/
def patch (w h : Nat) (img : Nat → Nat → Nat) (gm : Nat) (eight : Bool) : Patch where
  nd := if eight then 8 else 4
  nb := neighbour w h eight
  gray := fun p => img (p % w) (p / w) ^^^ gm
  start := 0
  cap := 1000
  px := Finset.range (w * h)

/-- What a call comes to: the states at the end of the passes, undefined behaviour, or a pass that has not ended. -/
inductive Res where
  | ok (vs : List St)
  | ub
  | long

/-- `extract_pixel` up to `step_4` (img_idiap_mser.cpp 267–452): `m_accessible` is cleared when there was a pass before (270–276).
The number of steps offered is the exact number needed (property C127). -/
def pass (fixed : Bool) (w h : Nat) (img : Nat → Nat → Nat) (gm : Nat) (eight fromMin : Bool) (acc : Nat → Bool)
    (pool : Nat → Reg) (room : Nat) : Out :=
  let P := patch w h img gm eight
  let acc := if gm ≠ 0 ∧ fromMin then fun _ => false else acc
  run fixed P ((P.nd + 1) * (w * h)) (init P acc pool room)

/-- The passes for dark (`fromMin`) and for bright regions after `allocate_memory` (img_idiap_mser.cpp 238–255: `pool_.resize(256)`,
`m_accessible` cleared); the callers call `extract_pixel` with 0 and with 255 (img_mser_base.cpp 90–109, as for the other detectors).
`pool` is what `pool_` holds from earlier calls. -/
def detect (fixed : Bool) (w h : Nat) (img : Nat → Nat → Nat) (eight fromMin fromMax : Bool) (pool : Nat → Reg) : Res :=
  let second (acc : Nat → Bool) (pool : Nat → Reg) (room : Nat) (vs : List St) : Res :=
    if fromMax then
      match pass fixed w h img 255 eight fromMin acc pool room with
      | .done v => .ok (vs ++ [v])
      | .ub => .ub
      | .next _ => .long
    else .ok vs
  if fromMin then
    match pass fixed w h img 0 eight fromMin (fun _ => false) pool 256 with
    | .done v => second v.acc v.pool v.room [v]
    | .ub => .ub
    | .next _ => .long
  else second (fun _ => false) pool 256 []

end Verif.Idiap
