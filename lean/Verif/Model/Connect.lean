import Mathlib.Logic.Function.Basic
import Verif.Spec.Conn
import Verif.Model.Flood

/-!
# Model: joining trees

`img_fast_mser_v2::connect`, /repo/basicimg/src/img_fast_mser_v2.cpp 607–655, and the macros
`get_real_for_merged`, `get_set_real_parent_for_merged` (4–13).

A region pointer is an element of `ι`, `NULL` is `none`.  The pointer-chasing loops of the macros are
given a bound `fuel`; running out of it is the outcome `none` (endless loop), which the theorems
exclude.  `m_size` (an `i32`) is a natural number: nothing is ever subtracted from it.  The counter
`m_merged_number` (636) is kept, it bounds the length of merged chains.
-/

namespace Verif.Connect

open Function (update)

variable {ι : Type} [DecidableEq ι]

/-- The fields of `mser_region` used by `connect` (img_fast_mser_v2.h 33–56); `merged` is
`m_region_flag == Flag_Merged`. -/
structure Node (ι : Type) where
  gray : Nat
  parent : Option ι
  merged : Bool
  size : Nat

abbrev Forest (ι : Type) := ι → Node ι

/-- `for (; r != NULL && r->m_region_flag == Flag_Merged; r = r->m_parent) {}`
(img_fast_mser_v2.cpp 4–5, 8, 11).  Outer `none`: bound exceeded. -/
def chase (F : Forest ι) : Nat → Option ι → Option (Option ι)
  | _, none => some none
  | 0, some r => if (F r).merged then none else some (some r)
  | k + 1, some r => if (F r).merged then chase F k (F r).parent else some (some r)

/-- `r->m_parent = p`. -/
def setParent (F : Forest ι) (r : ι) (p : Option ι) : Forest ι :=
  update F r { F r with parent := p }

/-- `r->m_size += n`. -/
def addSize (F : Forest ι) (r : ι) (n : Nat) : Forest ι :=
  update F r { F r with size := (F r).size + n }

/-- State of the loop of `connect`; `merges` is `m_merged_number`. -/
structure CSt (ι : Type) where
  F : Forest ι
  smaller : Option ι
  bigger : Option ι
  pix : Nat
  merges : Nat

/-- Outcome of one iteration: go on, leave the loop, or an endless pointer chase. -/
inductive CRes (ι : Type) where
  | next (s : CSt ι)
  | stop (s : CSt ι)
  | stuck

/-- The loop body from line 626 on, with `s = smaller`, `b = bigger` after the swap. -/
def linkStep (fuel : Nat) (F : Forest ι) (s b : ι) (pix merges : Nat) : CRes ι :=
  match chase F fuel (F s).parent with
  | none => .stuck
  | some sp =>
    let F := setParent F s sp                                                -- macro, line 12
    let link : CRes ι :=
      let m := decide ((F b).gray = (F s).gray)
      .next {
        F := update F s { F s with
          merged := (F s).merged || m                                        -- 632–633
          size := (F s).size + pix                                           -- 637–639
          parent := some b }                                                 -- 641
        smaller := some b                                                    -- 642
        bigger := sp                                                         -- 643
        pix := (F s).size                                                    -- 638
        merges := if m then merges + 1 else merges }
    match sp with
    | some x =>
      if (F x).gray < (F b).gray then                                        -- 628
        .next { F := addSize F s pix, smaller := some x, bigger := some b, pix := pix, merges := merges }
      else link
    | none => link

/-- One iteration of the loop (img_fast_mser_v2.cpp 616–645). -/
def connectStep (fuel : Nat) (c : CSt ι) : CRes ι :=
  match c.smaller, c.bigger with
  | some s, some b =>
    if s = b then .stop c
    else if (c.F b).gray < (c.F s).gray then linkStep fuel c.F b s c.pix c.merges   -- swap, 621–625
    else linkStep fuel c.F s b c.pix c.merges
  | _, _ => .stop c

/-- At most `n` iterations; `none` if the loop has not ended by then (or is stuck). -/
def connectLoop (fuel : Nat) : Nat → CSt ι → Option (CSt ι)
  | 0, _ => none
  | n + 1, c =>
    match connectStep fuel c with
    | .next c' => connectLoop fuel n c'
    | .stop c' => some c'
    | .stuck => none

/-- `while (smaller != NULL) { smaller->m_size += pixel_size; … }` (img_fast_mser_v2.cpp 648–653). -/
def addUp (fuel pix : Nat) : Nat → Forest ι → Option ι → Option (Forest ι)
  | _, F, none => some F
  | 0, _, some _ => none
  | n + 1, F, some s =>
    let F := addSize F s pix
    match chase F fuel (F s).parent with
    | none => none
    | some sp => addUp fuel pix n (setParent F s sp) sp

/-- A forest together with `m_merged_number`. -/
structure World (ι : Type) where
  F : Forest ι
  merges : Nat

/-- `connect(bigger, smaller)` (img_fast_mser_v2.cpp 607–655); both loops are given `steps`
iterations. -/
def connect (fuel steps : Nat) (W : World ι) (bigger smaller : Option ι) : Option (World ι) :=
  match connectLoop fuel steps ⟨W.F, smaller, bigger, 0, W.merges⟩ with
  | none => none
  | some c =>
    match c.bigger with
    | none =>
      match addUp fuel c.pix steps c.F c.smaller with
      | none => none
      | some F => some ⟨F, c.merges⟩
    | some _ => some ⟨c.F, c.merges⟩

/-- One joined adjacency in `merge_tree_parallel_step` (img_fast_mser_v2.cpp 569–576, 593–600): `a`
and `b` are the regions the two pixels are labelled with. -/
def joinAt (fuel steps : Nat) (W : World ι) (a b : ι) : Option (World ι) :=
  match chase W.F fuel (some a), chase W.F fuel (some b) with
  | some a', some b' => connect fuel steps W a' b'
  | _, _ => none

/-- A sequence of joins. -/
def joinAll (fuel steps : Nat) : World ι → List (ι × ι) → Option (World ι)
  | W, [] => some W
  | W, (a, b) :: l =>
    match joinAt fuel steps W a b with
    | none => none
    | some W' => joinAll fuel steps W' l

/-- What flooding leaves behind for one patch: `m_er_number` regions and the label of every pixel. -/
structure PatchTree (α : Type) where
  nreg : Nat
  regs : Nat → Flood.Reg
  lab : α → Nat

/-- The tree of one patch. -/
def PatchTree.tree {α : Type} (P : PatchTree α) : Spec.RegionTree α Nat where
  isReg := fun r => r < P.nreg
  lab := P.lab
  gray := fun r => (P.regs r).gray
  parent := fun r => (P.regs r).parent
  size := fun r => (P.regs r).size

/-- The forest before joining: `K` patches, region `(k, r)` is entry `r` of
`m_pinfo[k].m_mser_regions`; nothing is merged (`Flag_Unknow`, img_fast_mser_v2.cpp 480, 492). -/
def initForest {α : Type} (K : Nat) (P : Nat → PatchTree α) : Forest (Nat × Nat) := fun kr =>
  if kr.1 < K ∧ kr.2 < (P kr.1).nreg then
    { gray := ((P kr.1).regs kr.2).gray
      parent := ((P kr.1).regs kr.2).parent.map (fun r => (kr.1, r))
      merged := false
      size := ((P kr.1).regs kr.2).size }
  else { gray := 0, parent := none, merged := false, size := 0 }

/-- The tree that later stages read from a joined forest: merged regions are skipped by the macros of
lines 4–13 (used at 570, 595, 708, 1032, 1094, 2059). -/
def forestTree {α : Type} (fuel : Nat) (isReg : ι → Prop) (lab : α → ι) (F : Forest ι) :
    Spec.RegionTree α ι where
  isReg := fun r => isReg r ∧ (F r).merged = false
  lab := fun p => ((chase F fuel (some (lab p))).getD none).getD (lab p)
  gray := fun r => (F r).gray
  parent := fun r => (chase F fuel (F r).parent).getD none
  size := fun r => (F r).size

end Verif.Connect
