import Mathlib.Logic.Function.Basic
import Mathlib.Data.Finset.Card
import Verif.Spec.Conn

/-!
# Model: flooding of one patch

Models `img_fast_mser_v2::make_tree_patch`, /repo/basicimg/src/img_fast_mser_v2.cpp 238–404,
with `init_comp` (477–488) and `new_region` (490–500).

Simplifications (each is a change of representation, not of control flow):
* the packed word `*points` is two functions: `cnt` (the direction counter in the top bits;
  `0` = not visited) and `lab` (the `er_index` in the low bits, meaningful once the pixel is
  finished);
* the boundary heap is one stack per gray level (the flat array is modelled in
  `Verif.Model.FloodMem`);
* a region pointer is the region's `er_index`, i.e. its position of creation;
* `m_mask_mask = 0` (img_fast_mser_v2.cpp 190), so `get_gray` is the image value XOR the
  gray mask, supplied here as the function `gray`.
-/

namespace Verif.Flood

/-- What the flooding loop reads but never writes. -/
structure Patch where
  /-- number of neighbour directions toured; the loop condition `nbr_index <= 4`
  (img_fast_mser_v2.cpp 276) -/
  nd : Nat
  /-- `points + dir[k]` for `1 ≤ k ≤ nd` (img_fast_mser_v2.cpp 278, 162–178) -/
  nb : Nat → Nat → Nat
  /-- `get_gray` (img_fast_mser_v2.cpp 241) -/
  gray : Nat → Nat
  /-- first pixel (img_fast_mser_v2.cpp 247) -/
  start : Nat
  /-- number of entries of the array `m_comp` (img_fast_mser_v2.h: `m_comp[256]`) -/
  cap : Nat
  /-- the pixels of the patch (cells that are not padding) -/
  px : Finset Nat

/-- `connected_comp` (img_fast_mser_v2.h 58–63). -/
structure Comp where
  region : Nat
  gray : Nat
  size : Nat
deriving DecidableEq, Repr

/-- The fields of `mser_region` used while flooding (img_fast_mser_v2.h 20–56). -/
structure Reg where
  gray : Nat
  parent : Option Nat
  size : Nat
deriving DecidableEq, Repr

/-- The local and patch state of `make_tree_patch`. `comps` has the top of the stack first and
the sentinel of gray level 257 last. -/
structure St where
  cnt : Nat → Nat
  lab : Nat → Nat
  heap : Nat → List Nat
  comps : List Comp
  regs : Nat → Reg
  nreg : Nat
  cur : Nat
  curGray : Nat
  nbr : Nat

/-- Result of one step: continue, finished, or undefined behaviour (component stack written
or read outside its array). -/
inductive Out where
  | next (s : St)
  | done (s : St)
  | ub

open Function (update)

/-- Result of popping components until the level is reached. -/
structure Merged where
  comps : List Comp
  regs : Nat → Reg
  nreg : Nat

/-- `region->m_parent = p`. -/
def setParent (regs : Nat → Reg) (r p : Nat) : Nat → Reg :=
  update regs r { regs r with parent := some p }

/-- A fresh region at level `l` becomes the region of the component `c`, whose old region gets
it as parent (img_fast_mser_v2.cpp 350–356 and 382–387, `new_region` 490–500). -/
def raise (l : Nat) (c : Comp) (regs : Nat → Reg) (nreg : Nat) : Comp × (Nat → Reg) × Nat :=
  ({ c with region := nreg, gray := l },
   update (setParent regs c.region nreg) nreg { gray := l, parent := none, size := 0 },
   nreg + 1)

/-- The merging loop, img_fast_mser_v2.cpp 364–392: `c` is the top component, the list is what
lies below it.  `none` is a read below the sentinel. -/
def mergeLoop (l : Nat) : Comp → List Comp → (Nat → Reg) → Nat → Option Merged
  | c, d :: rest, regs, nreg =>
    let regs := setParent regs c.region d.region
    let d' := { d with size := d.size + c.size }
    if l ≤ d.gray then some ⟨d' :: rest, regs, nreg⟩
    else
      match rest with
      | [] => none
      | e :: rest' =>
        if l < e.gray then
          let (d'', regs, nreg) := raise l d' regs nreg
          some ⟨d'' :: e :: rest', regs, nreg⟩
        else mergeLoop l d' (e :: rest') regs nreg
  | _, [], _, _ => none

/-- The scan for the next level with a waiting pixel, img_fast_mser_v2.cpp 331–340: levels
`l, l+1, …` (`n` of them). -/
def scan (heap : Nat → List Nat) : Nat → Nat → Option Nat
  | 0, _ => none
  | n + 1, l => if heap l ≠ [] then some l else scan heap n (l + 1)

/-- One iteration of the `while (nbr_index <= 4)` tour, img_fast_mser_v2.cpp 276–311. -/
def tour (P : Patch) (s : St) : Out :=
  let q := P.nb s.cur s.nbr
  if s.cnt q = 0 then
    let ng := P.gray q
    if ng < s.curGray then
      if s.comps.length < P.cap then
        .next { s with
          cnt := update (update s.cnt q 1) s.cur (s.nbr + 1)
          heap := update s.heap s.curGray (s.cur :: s.heap s.curGray)
          cur := q
          comps := { region := s.nreg, gray := ng, size := 0 } :: s.comps
          regs := update s.regs s.nreg { gray := ng, parent := none, size := 0 }
          nreg := s.nreg + 1
          curGray := ng
          nbr := 1 }
      else .ub
    else
      .next { s with
        cnt := update s.cnt q 1
        heap := update s.heap ng (q :: s.heap ng)
        nbr := s.nbr + 1 }
  else .next { s with nbr := s.nbr + 1 }

/-- The rest of the loop body after the tour, img_fast_mser_v2.cpp 313–397. -/
def finish (s : St) : Out :=
  match s.comps with
  | c :: d :: rest =>
    let cnt := update s.cnt s.cur s.nbr
    let lab := update s.lab s.cur c.region
    let c := { c with size := c.size + 1 }
    match s.heap s.curGray with
    | p :: ps =>
      .next { s with cnt := cnt, lab := lab, comps := c :: d :: rest, cur := p
                     heap := update s.heap s.curGray ps, nbr := cnt p }
    | [] =>
      let regs := update s.regs c.region { s.regs c.region with size := c.size }
      match scan s.heap (256 - s.curGray) (s.curGray + 1) with
      | none => .done { s with cnt := cnt, lab := lab, comps := c :: d :: rest, regs := regs }
      | some l =>
        match s.heap l with
        | [] => .ub
        | p :: ps =>
          let heap := update s.heap l ps
          if l < d.gray then
            let (c, regs, nreg) := raise l c regs s.nreg
            .next { cnt := cnt, lab := lab, heap := heap, comps := c :: d :: rest, regs := regs
                    nreg := nreg, cur := p, curGray := l, nbr := cnt p }
          else
            match mergeLoop l c (d :: rest) regs s.nreg with
            | none => .ub
            | some m =>
              .next { cnt := cnt, lab := lab, heap := heap, comps := m.comps, regs := m.regs
                      nreg := m.nreg, cur := p, curGray := l, nbr := cnt p }
  | _ => .ub

/-- One elementary step of the outer loop, img_fast_mser_v2.cpp 272–398. -/
def step (P : Patch) (s : St) : Out :=
  if s.nbr ≤ P.nd then tour P s else finish s

/-- Initial state, img_fast_mser_v2.cpp 238–264, after `process_tree_patch` marked the padding
with the boundary value `(nd+1) << shift` and the pixels with 0 (412–447) and emptied the heap
(470–474). -/
def init (P : Patch) : St where
  cnt := update (fun i => if i ∈ P.px then 0 else P.nd + 1) P.start 1
  lab := fun _ => 0
  heap := fun _ => []
  comps := [{ region := 0, gray := P.gray P.start, size := 0 }, { region := 0, gray := 257, size := 0 }]
  regs := fun _ => { gray := P.gray P.start, parent := none, size := 0 }
  nreg := 1
  cur := P.start
  curGray := P.gray P.start
  nbr := 1

/-- Run at most `n` steps; `next` means the step budget was used up. -/
def run (P : Patch) : Nat → St → Out
  | 0, s => .next s
  | n + 1, s =>
    match step P s with
    | .next s' => run P n s'
    | o => o

/-- The tree left behind in `m_mser_regions` and `m_points`. -/
def treeOf (s : St) : Spec.RegionTree Nat Nat where
  isReg := fun r => r < s.nreg
  lab := s.lab
  gray := fun r => (s.regs r).gray
  parent := fun r => (s.regs r).parent
  size := fun r => (s.regs r).size

end Verif.Flood
