import Verif.Model.Grid

/-!
# Model: flooding of one patch in Fast MSER V1

Models `img_fast_mser_v1::make_tree_patch`, /repo/basicimg/src/img_fast_mser_v1.cpp 1017–1305, with `init_comp`
(1558–1571), `new_region` (1573–1584) and `merge_comp` (3471–3491).  Unless another file is named, line
numbers refer to that file.

Simplifications (each is a change of representation, not of control flow):
* the `i16` word of a cell is three functions: `vis` (bit 15; padding cells contain −1, so it is set there),
  `dir` (bits 9–12) and `P.gray` (bits 0–8, never changed); bit 14 (`Boundary_Yes_Mask`) is computed from the
  position by `flagged`, as `process_tree_patch` (1307–1556) sets it;
* the boundary heap is one stack per gray level, `lvl` is the level `heap_cur` points to;
* a region pointer is the region's position of creation.  `basicmath_block_memory_reuse` (1178) does nothing:
  `m_mser_regions.init(2000, sys_false)` (1025) sets the number of recycled slots to 0
  (/repo/basicmath/include/mt_block_memory.h 47–50, 108), so no slot is ever handed out twice and the test
  `comptr->m_region != cur_region` (1221, 1253) always holds;
* an index −1 in a linked point is `none`; a member that was never assigned is `none` as well, and using it
  as an index is undefined behaviour.
The debugging counters `erCount` and `mser_number` are left out.
-/

namespace Verif.V1

open Function (update)
open Verif.Flood (Patch scan)

/-- `m_left, m_right, m_top, m_bottom` (img_fast_mser_v1.h 71, 88). -/
structure Rect where
  left : Nat
  right : Nat
  top : Nat
  bottom : Nat
deriving DecidableEq, Repr

/-- `linked_point` (img_fast_mser_v1.h 22–30). -/
structure Point where
  x : Nat
  y : Nat
  next : Option Nat
  prev : Option Nat
  ref : Option Nat
deriving DecidableEq, Repr

/-- `connected_comp` (img_fast_mser_v1.h 80–89). -/
structure Comp where
  head : Option Nat
  tail : Option Nat
  region : Nat
  gray : Nat
  size : Nat
  rect : Rect
deriving DecidableEq, Repr

/-- The fields of `mser_region` used while flooding (img_fast_mser_v1.h 32–78). -/
structure Reg where
  gray : Nat
  boundary : Bool
  parent : Option Nat
  size : Nat
  unmerged : Nat
  head : Option Nat
  tail : Option Nat
  rect : Rect
deriving DecidableEq, Repr

/-- The geometry of a patch: the fields of `parallel_info` (img_fast_mser_v1.h 99–104, 113); `joined k` is
`m_boundary_regions[k] != NULL` for `k` = 0 left, 1 right, 2 top, 3 bottom. -/
structure Geo where
  left : Nat
  top : Nat
  width : Nat
  height : Nat
  wb : Nat
  joined : Nat → Bool

/-- The state of `make_tree_patch`.  `npts` is `ptsptr - m_linked_points`, `border k i` is
`m_boundary_regions[k][i]`; `comps` has the top of the stack first and the sentinel last. -/
structure St where
  vis : Nat → Bool
  dir : Nat → Nat
  heap : Nat → List Nat
  lvl : Nat
  comps : List Comp
  regs : Nat → Reg
  nreg : Nat
  cur : Nat
  pts : Nat → Point
  npts : Nat
  border : Nat → Nat → Option Nat

/-- Result of one step. -/
inductive Out where
  | next (s : St)
  | done (s : St)
  | ub

/-- Content of members never assigned. -/
def noRect : Rect := ⟨0, 0, 0, 0⟩

/-- `init_comp` (1558–1571): the component; `m_head`, `m_tail` and the rectangle are not assigned. -/
def initComp (g n : Nat) : Comp :=
  { head := none, tail := none, region := n, gray := g, size := 0, rect := noRect }

/-- `init_comp` (1558–1571): the region. -/
def initReg (g : Nat) : Reg :=
  { gray := g, boundary := false, parent := none, size := 0, unmerged := 0, head := none, tail := none, rect := noRect }

/-- `imsk / m_width_with_boundary` with `imsk = imgptr - ioptr` (1094–1096). -/
def cellY (P : Patch) (G : Geo) (i : Nat) : Nat := (i - P.start) / G.wb

/-- `imsk - m_y * m_width_with_boundary` (1097). -/
def cellX (P : Patch) (G : Geo) (i : Nat) : Nat := (i - P.start) - cellY P G i * G.wb

/-- Is side `k` of the patch joined with a neighbour, and does the cell lie on it?  (1101, 1106, 1111, 1115) -/
def onSide (P : Patch) (G : Geo) (i : Nat) : Nat → Bool
  | 0 => decide (cellX P G i = 0) && G.joined 0
  | 1 => decide (cellX P G i + 1 = G.width) && G.joined 1
  | 2 => decide (cellY P G i = 0) && G.joined 2
  | 3 => decide (cellY P G i + 1 = G.height) && G.joined 3
  | _ => false

/-- `*imgptr & Boundary_Yes_Mask` (1099) as set by `process_tree_patch` (1329–1429). -/
def flagged (P : Patch) (G : Geo) (i : Nat) : Bool :=
  onSide P G i 0 || onSide P G i 1 || onSide P G i 2 || onSide P G i 3

/-- The entries of `m_boundary_regions` written for one pixel (1101–1117): the left and right column are
indexed by the row, the top and bottom row by the column. -/
def setBorder (P : Patch) (G : Geo) (i r : Nat) (border : Nat → Nat → Option Nat) : Nat → Nat → Option Nat :=
  fun k j =>
    if onSide P G i k && decide (j = if k < 2 then cellY P G i else cellX P G i) then some r else border k j

/-- One iteration of the `while` tour (1054–1090). -/
def tour (P : Patch) (s : St) : Out :=
  let d := s.dir s.cur
  let q := P.nb s.cur (d + 1)
  let bump := update s.dir s.cur (d + 1)
  if s.vis q = false then
    let vis := update s.vis q true
    let g := P.gray s.cur
    let ng := P.gray q
    if ng < g then
      if s.comps.length < P.cap then
        .next { s with
          vis := vis
          heap := update s.heap s.lvl (s.cur :: s.heap s.lvl)
          dir := bump
          lvl := s.lvl + ng - g
          cur := q
          comps := initComp ng s.nreg :: s.comps
          regs := update s.regs s.nreg (initReg ng)
          nreg := s.nreg + 1 }
      else .ub
    else
      let l := s.lvl + ng - g
      .next { s with vis := vis, heap := update s.heap l (q :: s.heap l), dir := bump }
  else .next { s with dir := bump }

/-- The rectangle after one more point (1134–1144). -/
def Rect.grow (R : Rect) (x y : Nat) : Rect where
  left := if x < R.left then x else R.left
  right := if x < R.left then R.right else if R.right < x then x else R.right
  top := if y < R.top then y else R.top
  bottom := if y < R.top then R.bottom else if R.bottom < y then y else R.bottom

/-- `bound_pointer_adjust` (26–30). -/
def Rect.join (R S : Rect) : Rect where
  left := if S.left < R.left then S.left else R.left
  right := if R.right < S.right then S.right else R.right
  top := if S.top < R.top then S.top else R.top
  bottom := if R.bottom < S.bottom then S.bottom else R.bottom

/-- The current pixel is put in front of the component's list (1096–1097, 1122–1161); `n` is its index `pt_index`. -/
def accumulate (x y n : Nat) (c : Comp) (pts : Nat → Point) : Option (Comp × (Nat → Point)) :=
  if 0 < c.size then
    match c.head with
    | none => none
    | some h =>
      let pts := update pts n { x := x, y := y, next := some h, prev := none, ref := none }
      some ({ c with head := some n, size := c.size + 1, rect := c.rect.grow x y },
            update pts h { pts h with prev := some n })
  else
    some ({ c with head := some n, tail := some n, size := c.size + 1, rect := ⟨x, x, y, y⟩ },
          update pts n { x := x, y := y, next := none, prev := none, ref := none })

/-- What is stored in the region when its level is complete (1169–1173). -/
def store (c : Comp) (regs : Nat → Reg) : Nat → Reg :=
  update regs c.region { regs c.region with
    head := c.head, tail := c.tail, size := c.size, unmerged := c.size, rect := c.rect }

/-- A new region at level `l` takes over the component (1218–1227, 1250–1259, `new_region` 1573–1584). -/
def raise (l : Nat) (c : Comp) (regs : Nat → Reg) (n : Nat) : Comp × (Nat → Reg) × Nat :=
  ({ c with region := n, gray := l },
   update (update regs c.region { regs c.region with parent := some n }) n
     { initReg l with boundary := (regs c.region).boundary },
   n + 1)

/-- `merge_comp(c1, c2)` (3471–3491): the new `c2`. -/
def mergeComp (c1 c2 : Comp) (regs : Nat → Reg) (pts : Nat → Point) :
    Option (Comp × (Nat → Reg) × (Nat → Point)) :=
  let regs := update regs c1.region { regs c1.region with parent := some c2.region }
  let regs := update regs c2.region { regs c2.region with
    boundary := (regs c2.region).boundary || (regs c1.region).boundary }
  if 0 < c2.size then
    match c2.tail, c1.head with
    | some t, some h =>
      let pts := update pts t { pts t with next := some h }
      let pts := update pts h { pts h with prev := some t }
      some ({ c2 with tail := c1.tail, rect := c2.rect.join c1.rect, size := c2.size + c1.size }, regs, pts)
    | _, _ => none
  else
    some ({ c2 with head := c1.head, tail := c1.tail, rect := c1.rect, size := c2.size + c1.size }, regs, pts)

/-- Result of popping components until the level is reached. -/
structure Merged where
  comps : List Comp
  regs : Nat → Reg
  nreg : Nat
  pts : Nat → Point

/-- The merging loop (1234–1264): `c` is the top component, the list is what lies below it.  `none` is a read
below the sentinel or through a member never assigned. -/
def mergeLoop (l : Nat) : Comp → List Comp → (Nat → Reg) → Nat → (Nat → Point) → Option Merged
  | c, d :: rest, regs, nreg, pts =>
    match mergeComp c d regs pts with
    | none => none
    | some (d, regs, pts) =>
      if l ≤ d.gray then some ⟨d :: rest, regs, nreg, pts⟩
      else
        match rest with
        | [] => none
        | e :: rest' =>
          if l < e.gray then
            let (d, regs, nreg) := raise l d regs nreg
            some ⟨d :: e :: rest', regs, nreg, pts⟩
          else mergeLoop l d (e :: rest') regs nreg pts
  | _, [], _, _, _ => none

/-- The rest of the loop body after the tour (1092–1268). -/
def finish (P : Patch) (G : Geo) (s : St) : Out :=
  match s.comps with
  | c :: d :: rest =>
    let x := cellX P G s.cur + G.left
    let y := cellY P G s.cur + G.top
    let border := setBorder P G s.cur c.region s.border
    let regs := update s.regs c.region { s.regs c.region with
      boundary := (s.regs c.region).boundary || flagged P G s.cur }                     -- 1119
    match accumulate x y s.npts c s.pts with
    | none => .ub
    | some (c, pts) =>
      let s := { s with regs := regs, border := border, pts := pts, npts := s.npts + 1, comps := c :: d :: rest }
      match s.heap s.lvl with
      | p :: ps => .next { s with cur := p, heap := update s.heap s.lvl ps }             -- 1164–1166
      | [] =>
        let regs := store c s.regs
        let g := P.gray s.cur
        match scan s.heap (256 - g) (g + 1) with                                         -- 1203–1210
        | none => .done { s with regs := regs }
        | some l =>
          match s.heap l with
          | [] => .ub
          | p :: ps =>
            let heap := update s.heap l ps
            if l < d.gray then
              let (c, regs, nreg) := raise l c regs s.nreg
              .next { s with heap := heap, lvl := l, comps := c :: d :: rest, regs := regs, nreg := nreg, cur := p }
            else
              match mergeLoop l c (d :: rest) regs s.nreg s.pts with
              | none => .ub
              | some m =>
                .next { s with heap := heap, lvl := l, comps := m.comps, regs := m.regs, nreg := m.nreg
                               pts := m.pts, cur := p }
  | _ => .ub

/-- One elementary step of the outer loop (1052–1269). -/
def step (P : Patch) (G : Geo) (s : St) : Out :=
  if s.dir s.cur < P.nd then tour P s else finish P G s

/-- Initial state (1027–1048).  `m_linked_points` and `m_boundary_regions` are shared by the patches: `pts` and
`border` are their content, `base` is `m_link_points - m_linked_points`. -/
def init (P : Patch) (base : Nat) (pts : Nat → Point) (border : Nat → Nat → Option Nat) : St where
  vis := update (fun i => decide (i ∉ P.px)) P.start true
  dir := fun _ => 0
  heap := fun _ => []
  lvl := P.gray P.start
  comps := [initComp (P.gray P.start) 0, initComp 257 0]
  regs := fun _ => initReg (P.gray P.start)
  nreg := 1
  cur := P.start
  pts := pts
  npts := base
  border := border

/-- Run at most `n` steps; `next` means the step budget was used up. -/
def run (P : Patch) (G : Geo) : Nat → St → Out
  | 0, s => .next s
  | n + 1, s =>
    match step P G s with
    | .next s' => run P G n s'
    | o => o

end Verif.V1
