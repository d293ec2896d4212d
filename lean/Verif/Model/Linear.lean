import Mathlib.Logic.Function.Basic

/-!
# Model: the linear detector, flooding

Models the flooding part of `img_linked_linear_mser`, /repo/basicimg/src/img_linked_linear_mser.cpp:
`init_comp` (6–17), `new_region` (19–29), `merge_comp` (31–49), `accumulate_comp` (51–64), `allocate_memory`
(118–277), `pre_process_image` (279–437), `extract_pass` (439–594) and `build_tree` (1141–1145), with the data
layout of the C++.  Unless another file is named, line numbers refer to that file.

* `words` is the `i16` array `m_masked_image`, an entry given by its bit pattern (a number below 2^16): bit 15
  is "visited" (padding is −1), bits 9–12 count the directions toured, bits 0–8 hold the gray level 0…256;
* `heap` is the array `m_heap` (`none` = null pointer), `top l` is `m_heap_start[l]`, `lvl` is
  `heap_cur - m_heap_start`;
* pointers into `m_masked_image`, `m_points` and `m_regions` are indices.

Undefined behaviour (`ub`): an access outside `m_masked_image`, `m_heap`, `m_heap_start`, `m_comp`, `m_points`
or `m_regions`, or a use of a member of a component that was never assigned (`none`).  The buffers hold arbitrary
values when a pass begins.  The debugging counters `er_number` and `mser_number` are left out.  The fields
`m_calculated_var`, `m_has_child`, `m_short_cut_offset` are written here and used only by functions that are never
called (94–116, 686–801); `m_region_flag` belongs to recognition (`Verif.Model.LinearRecog`).
-/

namespace Verif.Linear

open Function (update)

/-- `linked_point` (/repo/basicimg/include/img_linked_linear_mser.h). -/
structure Point where
  x : Nat
  y : Nat
  next : Option Nat
  prev : Option Nat
deriving DecidableEq, Repr

/-- `connected_comp`; a member that was never assigned is `none`. -/
structure Comp where
  head : Option Nat
  tail : Option Nat
  region : Nat
  gray : Nat
  size : Nat
deriving DecidableEq, Repr

/-- The fields of `mser_region` used while flooding.  `m_gray_level` is a `u8`. -/
structure Reg where
  gray : Nat
  parent : Option Nat
  size : Nat
  head : Nat
  tail : Nat
deriving DecidableEq, Repr

/-- Size of the image and `m_connected_type == img_Connected_Type_8_Neibour`. -/
structure Dim where
  w : Nat
  h : Nat
  eight : Bool

/-- Number of entries of `m_points` and `m_regions` (120–121, 213–229); the rectangle is always the whole image. -/
def Dim.area (D : Dim) : Nat := D.w * D.h
/-- Number of entries of `m_masked_image` (189). -/
def Dim.cells (D : Dim) : Nat := (D.h + 2) * (D.w + 2)
/-- Number of entries of `m_heap` (201). -/
def Dim.hsize (D : Dim) : Nat := D.area + 257
/-- `row_step` (255). -/
def Dim.row (D : Dim) : Nat := D.w + 2
/-- `m_dir` (257–276). -/
def Dim.dirs (D : Dim) : List Int :=
  let r : Int := D.row
  if D.eight then [1, 1 - r, -r, -1 - r, -1, -1 + r, r, 1 + r] else [1, -r, -1, r]
/-- `m_dir_max` (267, 274). -/
def Dim.dirMax (D : Dim) : Nat := if D.eight then 0x1000 else 0x800
/-- `m_dir_mask` (268, 275). -/
def Dim.dirMask (D : Dim) : Nat := if D.eight then 0x1e00 else 0x0e00
/-- `ioptr - m_masked_image` (1142). -/
def Dim.start (D : Dim) : Nat := D.w + 2 + 1

/-- `imgptr + m_dir[k]` (472). -/
def Dim.nbr (D : Dim) (i k : Nat) : Option Nat :=
  match D.dirs[k]? with
  | none => none
  | some d => if 0 ≤ (i : Int) + d ∧ (i : Int) + d < D.cells then some ((i : Int) + d).toNat else none

/-- `img_mask_info` (/repo/basicimg/include/img_connected_component.h 147–176). -/
inductive Mask where
  | null
  | image (m : Nat → Nat → Nat)
  | rect (left top width height : Nat)
  | value (v : Nat)

/-- The value stored for a pixel, which is also the level counted for it.  A rectangle is treated like no mask at
all (292–321).  With a mask value and `gray_mask == 0` the masked level 256 is computed (388–392) but the plain
value is counted and stored (394–395). -/
def cellVal (mask : Mask) (gm : Nat) (src : Nat → Nat → Nat) (x y : Nat) : Nat :=
  match mask with
  | .null => if gm = 0 then src x y else 0xff - src x y
  | .rect _ _ _ _ => if gm = 0 then src x y else 0xff - src x y
  | .image m => if gm = 0 then (if m x y = 0 then 256 else src x y)
      else (if m x y = 0 then 256 else 0xff - src x y)
  | .value v => if gm = 0 then src x y else (if src x y = v then 256 else 0xff - src x y)

/-- The buffers of the detector that survive a pass. -/
structure Buf where
  words : Nat → Nat
  heap : Nat → Option Nat
  top : Nat → Nat
  regs : Nat → Reg
  pts : Nat → Point

/-- The values of one row. -/
def rowVals (D : Dim) (val : Nat → Nat → Nat) (y : Nat) : List Nat := (List.range D.w).map fun x => val x y

/-- Everything written through `imgptr`, in order (288–430): a row of −1, the rows with a −1 on both sides, a row
of −1. -/
def wordList (D : Dim) (val : Nat → Nat → Nat) : List Nat :=
  List.replicate (D.w + 2) 0xffff
    ++ (List.range D.h).flatMap (fun y => 0xffff :: (rowVals D val y ++ [0xffff]))
    ++ List.replicate (D.w + 2) 0xffff

/-- `level_size` after all rows (283–286, 303, 315, 341, …). -/
def levelSize (D : Dim) (val : Nat → Nat → Nat) : Nat → Nat :=
  ((List.range D.h).flatMap (rowVals D val)).foldl (fun f v => update f v (f v + 1)) (fun _ => 0)

/-- One iteration of the loop over the levels, with `i` for `i - 1` (433–436). -/
def heapStep (lv : Nat → Nat) (b : Buf) (i : Nat) : Buf :=
  let a := b.top i + lv i + 1
  { b with top := update b.top (i + 1) a, heap := update b.heap a none }

/-- `pre_process_image` (279–437) for pixel values `val`. -/
def preProcess (D : Dim) (val : Nat → Nat → Nat) (b : Buf) : Buf :=
  let b := { b with words := fun i => ((wordList D val)[i]?).getD (b.words i) }
  (List.range 256).foldl (heapStep (levelSize D val)) { b with heap := update b.heap (b.top 0) none }

/-- The local state of `extract_pass` and the buffers. `npts` is `ptsptr - m_points`, `nreg` is
`regions - m_regions`; `comps` has the top of the stack first and the sentinel last. -/
structure St extends Buf where
  lvl : Nat
  comps : List Comp
  nreg : Nat
  cur : Nat
  npts : Nat

/-- Result of one step. -/
inductive Out where
  | next (s : St)
  | done (s : St)
  | ub

/-- `init_comp` (6–17): the component. -/
def initComp (g n : Nat) : Comp := { head := none, tail := none, region := n, gray := g, size := 0 }

/-- `init_comp` and `new_region` (6–29): the region; size, head and tail keep what the slot holds. -/
def initReg (R : Reg) (g : Nat) : Reg := { R with gray := g % 256, parent := none }

/-- `heap_cur[k]++; *heap_cur[k] = x` (484–485, 496–497) for the level `l`. -/
def push (D : Dim) (b : Buf) (l x : Nat) : Option Buf :=
  if l ≤ 256 ∧ b.top l + 1 < D.hsize then
    some { b with top := update b.top l (b.top l + 1), heap := update b.heap (b.top l + 1) (some x) }
  else none

/-- `*imgptr += 0x200` (486, 501). -/
def bump (words : Nat → Nat) (i : Nat) : Nat → Nat := update words i ((words i + 0x200) % 0x10000)

/-- `*imgptr |= 0x8000` (461, 476). -/
def mark (words : Nat → Nat) (i : Nat) : Nat → Nat := update words i (words i ||| 0x8000)

/-- One iteration of the tour (470–502). -/
def tour (D : Dim) (s : St) : Out :=
  match D.nbr s.cur ((s.words s.cur &&& D.dirMask) >>> 9) with
  | none => .ub
  | some q =>
    if s.words q &&& 0x8000 = 0 then                                                    -- 474
      let words := mark s.words q
      let g := words s.cur &&& 0x01ff
      let ng := words q &&& 0x01ff
      if ng < g then                                                                    -- 480
        match push D s.toBuf s.lvl s.cur with
        | none => .ub
        | some b =>
          if s.comps.length < 258 ∧ s.nreg < D.area ∧ g ≤ s.lvl + ng then
            .next { words := bump words s.cur, heap := b.heap, top := b.top, pts := s.pts
                    lvl := s.lvl + ng - g
                    cur := q
                    comps := initComp ng s.nreg :: s.comps
                    regs := update s.regs s.nreg (initReg (s.regs s.nreg) ng)
                    nreg := s.nreg + 1
                    npts := s.npts }
          else .ub
      else
        match push D s.toBuf (s.lvl + (ng - g)) q with
        | none => .ub
        | some b => .next { s with words := bump words s.cur, heap := b.heap, top := b.top }
    else .next { s with words := bump s.words s.cur }

/-- `accumulate_comp` (51–64) with the position (505–507); `n` is `ptsptr - m_points`. -/
def accumulate (x y n : Nat) (c : Comp) (pts : Nat → Point) : Option (Comp × (Nat → Point)) :=
  if 0 < c.size then
    match c.head with
    | none => none
    | some h =>
      let pts := update pts n { x := x, y := y, next := some h, prev := none }
      some ({ c with head := some n, size := c.size + 1 }, update pts h { pts h with prev := some n })
  else
    some ({ c with head := some n, tail := some n, size := c.size + 1 },
          update pts n { x := x, y := y, next := none, prev := none })

/-- The members of the region assigned when its level is complete (517–519). -/
def store (c : Comp) (regs : Nat → Reg) : Option (Nat → Reg) :=
  match c.head, c.tail with
  | some h, some t => some (update regs c.region { regs c.region with head := h, tail := t, size := c.size })
  | _, _ => none

/-- A new region at level `l` takes over the component (538–540, 562–564). -/
def raise (D : Dim) (l : Nat) (c : Comp) (regs : Nat → Reg) (n : Nat) : Option (Comp × (Nat → Reg) × Nat) :=
  if n < D.area then
    let regs := update regs c.region { regs c.region with parent := some n }
    some ({ c with region := n, gray := l }, update regs n (initReg (regs n) l), n + 1)
  else none

/-- `merge_comp(c1, c2)` (31–49): the new `c2`. -/
def mergeComp (c1 c2 : Comp) (regs : Nat → Reg) (pts : Nat → Point) :
    Option (Comp × (Nat → Reg) × (Nat → Point)) :=
  let regs := update regs c1.region { regs c1.region with parent := some c2.region }
  match c1.head, c1.tail with
  | some h, some t1 =>
    if 0 < c2.size then
      match c2.tail with
      | some t =>
        let pts := update pts t { pts t with next := some h }
        let pts := update pts h { pts h with prev := some t }
        some ({ c2 with tail := some t1, size := c2.size + c1.size }, regs, pts)
      | none => none
    else some ({ c2 with head := some h, tail := some t1, size := c2.size + c1.size }, regs, pts)
  | _, _ => none

/-- Result of popping components until the level is reached. -/
structure Merged where
  comps : List Comp
  regs : Nat → Reg
  nreg : Nat
  pts : Nat → Point

/-- The merging loop (547–569): `c` is the top component, the list is what lies below it. -/
def mergeLoop (D : Dim) (l : Nat) : Comp → List Comp → (Nat → Reg) → Nat → (Nat → Point) → Option Merged
  | c, d :: rest, regs, nreg, pts =>
    match mergeComp c d regs pts with
    | none => none
    | some (d, regs, pts) =>
      if l ≤ d.gray then some ⟨d :: rest, regs, nreg, pts⟩
      else
        match rest with
        | [] => none
        | e :: rest' =>
          if l < e.gray then
            match raise D l d regs nreg with
            | none => none
            | some (d, regs, nreg) => some ⟨d :: e :: rest', regs, nreg, pts⟩
          else mergeLoop D l d (e :: rest') regs nreg pts
  | _, [], _, _, _ => none

/-- The scan for the next level with a waiting pixel (521–530): `k` is `heap_cur - m_heap_start`, `i` the counter,
`n` the number of iterations left.  The outer `none` is a read outside the arrays. -/
def scan (D : Dim) (b : Buf) : Nat → Nat → Nat → Option (Option (Nat × Nat))
  | 0, _, _ => some none
  | n + 1, k, i =>
    if k ≤ 256 ∧ b.top k < D.hsize then
      if (b.heap (b.top k)).isSome then some (some (k, i)) else scan D b n (k + 1) (i + 1)
    else none

/-- The rest of the loop body after the tour (504–573). -/
def finish (D : Dim) (s : St) : Out :=
  match s.comps with
  | c :: d :: rest =>
    if s.npts < D.area ∧ D.start ≤ s.cur ∧ s.lvl ≤ 256 ∧ s.top s.lvl < D.hsize then
      let imsk := s.cur - D.start
      let y := imsk / (D.w + 2)
      let x := imsk - y * (D.w + 2)
      match accumulate x y s.npts c s.pts with
      | none => .ub
      | some (c, pts) =>
        let s := { s with pts := pts, npts := s.npts + 1, comps := c :: d :: rest }
        match s.heap (s.top s.lvl) with
        | some p => .next { s with cur := p, top := update s.top s.lvl (s.top s.lvl - 1) }   -- 512–514
        | none =>
          match store c s.regs with
          | none => .ub
          | some regs =>
            let g := s.words s.cur &&& 0x01ff
            match scan D s.toBuf (256 - g) (s.lvl + 1) (g + 1) with
            | none => .ub
            | some none => .done { s with regs := regs }
            | some (some (k, l)) =>
              match s.heap (s.top k) with
              | none => .ub
              | some p =>
                let top := update s.top k (s.top k - 1)
                if l < d.gray then
                  match raise D l c regs s.nreg with
                  | none => .ub
                  | some (c, regs, nreg) =>
                    .next { s with top := top, lvl := k, comps := c :: d :: rest, regs := regs, nreg := nreg, cur := p }
                else
                  match mergeLoop D l c (d :: rest) regs s.nreg s.pts with
                  | none => .ub
                  | some m =>
                    .next { s with top := top, lvl := k, comps := m.comps, regs := m.regs, nreg := m.nreg
                                   pts := m.pts, cur := p }
    else .ub
  | _ => .ub

/-- One elementary step of the outer loop (468–574). -/
def step (D : Dim) (s : St) : Out :=
  if s.words s.cur &&& D.dirMask < D.dirMax then tour D s else finish D s

/-- The state at the head of the loop (443–466). -/
def init (D : Dim) (b : Buf) : St where
  words := mark b.words D.start
  heap := b.heap
  top := b.top
  regs := update b.regs 0 (initReg (b.regs 0) (b.words D.start &&& 0x01ff))
  pts := b.pts
  lvl := (b.words D.start ||| 0x8000) &&& 0x01ff
  comps := [initComp (b.words D.start &&& 0x01ff) 0, initComp 257 0]
  nreg := 1
  cur := D.start
  npts := 0

/-- Run at most `n` steps; `next` means the step budget was used up. -/
def run (D : Dim) : Nat → St → Out
  | 0, s => .next s
  | n + 1, s =>
    match step D s with
    | .next s' => run D n s'
    | o => o

/-- `build_tree` (1141–1145): the outcome of the loop of `extract_pass`.  The number of steps offered is the exact
number needed (property C71). -/
def buildTree (D : Dim) (mask : Mask) (gm : Nat) (src : Nat → Nat → Nat) (b : Buf) : Out :=
  run D ((if D.eight then 9 else 5) * D.area) (init D (preProcess D (cellVal mask gm src) b))

end Verif.Linear
