import Verif.Model.Flood

/-!
# Model: flooding of one patch, on memory

The same code as `Verif.Model.Flood` (/repo/basicimg/src/img_fast_mser_v2.cpp 238–475), with the
data layout of the C++ in place of the abstract one:

* `words` is the `u32` array `m_points`: direction counter in bits 29–31, `er_index` below;
* `heap` is the array `m_heap` of the patch (`none` = null pointer); it has `hsize` cells;
* `top l` is the stack pointer `m_heap_start[l]`, an index into that array.

Reading or writing `heap` outside `hsize` cells and pushing on a full component stack are
undefined behaviour (`ub`).  Still abstract: the component stack is a list (its capacity is
checked), regions are addressed by `er_index` (block memory is `Verif.Model.BlockMemory`).
-/

namespace Verif.FloodMem

open Verif.Flood (Patch Comp Reg Merged mergeLoop raise)
open Function (update)

/-- The buffers of a patch that survive a pass (img_fast_mser_v2.h 66–89). -/
structure Buf where
  words : Nat → Nat
  heap : Nat → Option Nat
  top : Nat → Nat

/-- `m_dir_shift` in 4-neighbour mode (img_fast_mser_v2.cpp 198). -/
def shift : Nat := 29
/-- `m_dir_mask` (img_fast_mser_v2.cpp 197). -/
def dirMask : Nat := 0xe0000000
/-- `m_boundary_pixel = 5 << m_dir_shift` (img_fast_mser_v2.cpp 199). -/
def boundaryPixel : Nat := 5 <<< shift

/-- Position of the sentinel of level `l` relative to level 0
(img_fast_mser_v2.cpp 471–474: `heap_start[i] = heap_start[i-1] + level_size[i-1] + 1`). -/
def offset (hist : Nat → Nat) : Nat → Nat
  | 0 => 0
  | l + 1 => offset hist l + hist l + 1

/-- The end of `process_tree_patch` (img_fast_mser_v2.cpp 470–474): stack pointers of levels
1…256 follow from that of level 0, and a null sentinel is stored at each.  `m_heap_start[0]` is
*not* reset here; it is set once by `allocate_memory` (158). -/
def setHeap (hist : Nat → Nat) (b : Buf) : Buf :=
  { b with
    top := fun l => if l ≤ 256 then b.top 0 + offset hist l else b.top l
    heap := fun a => if a ∈ (List.range 257).map (fun l => b.top 0 + offset hist l) then none
      else b.heap a }

/-- `process_tree_patch`, first polarity (img_fast_mser_v2.cpp 413–447): padding cells get the
boundary value, pixels 0.  (The three loops over rows and columns are written as a function of the
cell index; `level_size` becomes the histogram `hist`.) -/
def prepareFirst (P : Patch) (hist : Nat → Nat) (b : Buf) : Buf :=
  setHeap hist { b with words := fun i => if i ∈ P.px then 0 else boundaryPixel }

/-- `process_tree_patch`, second polarity (img_fast_mser_v2.cpp 448–468): only the pixels are
cleared, the padding keeps what it has; `hist` is the reversed histogram (462–467). -/
def prepareSecond (P : Patch) (hist : Nat → Nat) (b : Buf) : Buf :=
  setHeap hist { b with words := fun i => if i ∈ P.px then 0 else b.words i }

/-- Swapping `level_size[i]` and `level_size[255-i]` for `i < 128` (img_fast_mser_v2.cpp 462–467). -/
def swapStep (ls : Nat → Nat) (i : Nat) : Nat → Nat :=
  update (update ls i (ls (255 - i))) (255 - i) (ls i)

/-- The whole swapping loop. -/
def reverseLevels (ls : Nat → Nat) : Nat → Nat := (List.range 128).foldl swapStep ls

/-- Local and patch state of `make_tree_patch`. -/
structure MSt extends Buf where
  comps : List Comp
  regs : Nat → Reg
  nreg : Nat
  cur : Nat
  curGray : Nat
  nbr : Nat

inductive MOut where
  | next (s : MSt)
  | done (s : MSt)
  | ub

/-- State at the head of the loop (img_fast_mser_v2.cpp 245–264). -/
def init (P : Patch) (b : Buf) : MSt where
  words := update b.words P.start (1 <<< shift)
  heap := b.heap
  top := b.top
  comps := [{ region := 0, gray := P.gray P.start, size := 0 }, { region := 0, gray := 257, size := 0 }]
  regs := fun _ => { gray := P.gray P.start, parent := none, size := 0 }
  nreg := 1
  cur := P.start
  curGray := P.gray P.start
  nbr := 1 <<< shift >>> shift

/-- One iteration of the tour (img_fast_mser_v2.cpp 276–311). -/
def tour (P : Patch) (hsize : Nat) (s : MSt) : MOut :=
  let q := P.nb s.cur s.nbr
  if s.words q &&& dirMask = 0 then
    let ng := P.gray q
    let words := update s.words q (1 <<< shift)
    if ng < s.curGray then
      let a := s.top s.curGray + 1
      if a < hsize ∧ s.comps.length < P.cap then
        .next {
          words := update words s.cur ((s.nbr + 1) <<< shift)
          heap := update s.heap a (some s.cur)
          top := update s.top s.curGray a
          comps := { region := s.nreg, gray := ng, size := 0 } :: s.comps
          regs := update s.regs s.nreg { gray := ng, parent := none, size := 0 }
          nreg := s.nreg + 1
          cur := q
          curGray := ng
          nbr := 1 }
      else .ub
    else
      let a := s.top ng + 1
      if a < hsize then
        .next { s with
          words := words
          heap := update s.heap a (some q)
          top := update s.top ng a
          nbr := s.nbr + 1 }
      else .ub
  else .next { s with nbr := s.nbr + 1 }

/-- The scan for the next level with a waiting pixel (img_fast_mser_v2.cpp 331–340); the outer
`none` is a read outside the heap array. -/
def scan (s : MSt) (hsize : Nat) : Nat → Nat → Option (Option Nat)
  | 0, _ => some none
  | n + 1, l =>
    if s.top l < hsize then
      if (s.heap (s.top l)).isSome then some (some l) else scan s hsize n (l + 1)
    else none

/-- The rest of the loop body (img_fast_mser_v2.cpp 313–397). -/
def finish (hsize : Nat) (s : MSt) : MOut :=
  match s.comps with
  | c :: d :: rest =>
    let words := update s.words s.cur ((s.nbr <<< shift) ||| c.region)
    let c := { c with size := c.size + 1 }
    if s.top s.curGray < hsize then
      match s.heap (s.top s.curGray) with
      | some p =>
        .next { s with words := words, comps := c :: d :: rest, cur := p
                       top := update s.top s.curGray (s.top s.curGray - 1)
                       nbr := words p >>> shift }
      | none =>
        let regs := update s.regs c.region { s.regs c.region with size := c.size }
        match scan s hsize (256 - s.curGray) (s.curGray + 1) with
        | none => .ub
        | some none => .done { s with words := words, comps := c :: d :: rest, regs := regs }
        | some (some l) =>
          match s.heap (s.top l) with
          | none => .ub
          | some p =>
            let top := update s.top l (s.top l - 1)
            if l < d.gray then
              let (c, regs, nreg) := raise l c regs s.nreg
              .next { words := words, heap := s.heap, top := top, comps := c :: d :: rest
                      regs := regs, nreg := nreg, cur := p, curGray := l, nbr := words p >>> shift }
            else
              match mergeLoop l c (d :: rest) regs s.nreg with
              | none => .ub
              | some m =>
                .next { words := words, heap := s.heap, top := top, comps := m.comps
                        regs := m.regs, nreg := m.nreg, cur := p, curGray := l
                        nbr := words p >>> shift }
    else .ub
  | _ => .ub

/-- One elementary step. -/
def step (P : Patch) (hsize : Nat) (s : MSt) : MOut :=
  if s.nbr ≤ P.nd then tour P hsize s else finish hsize s

/-- At most `n` steps. -/
def run (P : Patch) (hsize : Nat) : Nat → MSt → MOut
  | 0, s => .next s
  | n + 1, s =>
    match step P hsize s with
    | .next s' => run P hsize n s'
    | o => o

/-- `at(*points - m_boundary_pixel)`: the region index read back from a finished pixel
(img_fast_mser_v2.cpp 316, 569–570, 593–594). -/
def labelOf (words : Nat → Nat) (i : Nat) : Nat := words i - boundaryPixel

end Verif.FloodMem
