import Verif.Model.RecognizeV1
import Verif.Model.LinearRecog
import Verif.Model.Original
import Verif.Model.Rect

/-!
# Model: the original detector, recognition of stable regions and extraction

`img_original_mser::recognize_mser` (/repo/basicimg/src/img_origin_mser.cpp 38–185), `extract_pixel` (187–211),
`getDuplicatedRegions` (255–281), `calculateStableVariantion` (302–330), and `img_mser_base::extract`
(/repo/basicimg/src/img_mser_base.cpp 74–116) for this detector.  Line numbers refer to the first file unless said
otherwise.

* Regions, configuration and rounding are those of `Verif.Model.Recognize`; `m_merged` (which recognition does not
  change) and `mShortCut` are kept beside them.
* `getDuplicatedRegions` is, loop body for loop body, `get_duplicated_regions` of V1 and is taken from there
  (`Recog.groupV1`), as is the loop over ancestors of the linear detector (`Linear.climbL`).
* Left out: `m_channel_total_pixel_number` (not used by this detector's extraction), the counters for messages,
  `getStabilityRegions` and the `assert…` functions (never called).

The outcome `none` stands for a null pointer or a pointer to a region that does not exist being used, an access
outside an array, or an endless loop.
-/

namespace Verif.Original

open Function (update)
open Verif.Recog
open Verif.Linear (Mask climbL)

/-- The regions during recognition; `invalid` is `invalidCount`. -/
structure RecSt where
  R : RForest Nat
  short : Nat → Nat
  invalid : Nat

/-- `while (NULL != p && p->m_merged) p = p->mParent` (58–60, 67–69), at most `n` iterations. -/
def unmerged (merged : Nat → Bool) (R : RForest Nat) : Nat → Option Nat → Option (Option Nat)
  | _, none => some none
  | n, some p =>
    if merged p then
      match n with
      | 0 => none
      | n + 1 => unmerged merged R n (R p).parent
    else some (some p)

/-- Body of the first loop (46–78). -/
def resolve (merged : Nat → Bool) (n : Nat) (s : RecSt) (i : Nat) : Option RecSt :=
  let s := { s with short := update s.short i i }                                           -- 47
  if merged i then some { s with R := setFlag s.R i .invalid, invalid := s.invalid + 1 }    -- 49–53
  else
    match unmerged merged s.R n (s.R i).parent with                                         -- 56–60
    | none => none
    | some none => some { s with R := setParent s.R i none }                                -- 62
    | some (some p) =>
      let R := setParent s.R i (some p)                                                     -- 62
      match unmerged merged R n (R p).parent with                                           -- 65–69
      | none => none
      | some q => some { s with R := setParent R p q }                                      -- 71

/-- `calculateStableVariantion` (302–330). -/
def stableVar (cfg : Cfg) (n : Nat) (s : RecSt) (r : Nat) : Option RecSt :=
  let thr : Int := (s.R r).gray + cfg.delta
  match climbL s.R thr n (s.short r) (s.R (s.short r)).parent with                          -- 318–324
  | none => none
  | some (temp, parent) =>
    if parent.isSome ∨ ((s.R temp).gray : Int) = thr then                                   -- 326
      match (s.R r).parent with
      | none => none                                                                        -- null dereference at 327
      | some p => some { s with short := update s.short p temp, R := setVar s.R r (ratio32 cfg (s.R temp).size (s.R r).size) }
    else some s

/-- Body of the second loop (80–101). -/
def visitO (cfg : Cfg) (n : Nat) (s : RecSt) (r : Nat) : Option RecSt :=
  if (s.R r).flag ≠ .invalid then
    match (if 0 < cfg.delta then stableVar cfg n s r else some s) with
    | none => none
    | some s =>
      if 0 < cfg.delta ∧ cfg.stable < (s.R r).var then some { s with R := setFlag s.R r .invalid, invalid := s.invalid + 1 }
      else if ((s.R r).size : Int) < cfg.minPoint ∨ cfg.maxPoint < ((s.R r).size : Int) then
        some { s with R := setFlag s.R r .invalid, invalid := s.invalid + 1 }
      else some s
  else some s

/-- Body of the third loop (103–124). -/
def nmsO (cfg : Cfg) (s : RecSt) (r : Nat) : RecSt :=
  let x := s.R r
  match x.parent with
  | none => s
  | some p =>
    let y := s.R p
    if 0 ≤ x.var ∧ 0 ≤ y.var ∧ y.gray = x.gray + 1 then
      let sub := cfg.r32 (y.var - x.var)
      if cfg.nms < sub then
        if y.flag ≠ .invalid then { s with R := setFlag s.R p .invalid, invalid := s.invalid + 1 } else s
      else if cfg.nms < -sub then
        if x.flag ≠ .invalid then { s with R := setFlag s.R r .invalid, invalid := s.invalid + 1 } else s
      else s
    else s

/-- Body of the loop that removes duplicates (135–161). -/
def dedupO (cfg : Cfg) (s : RecSt) (r : Nat) : Option RecSt :=
  if (s.R r).flag ≠ .unknown then some s
  else
    match groupV1 cfg s.R r with
    | none => none
    | some (g, mid) => some { s with R := markGroup s.R g mid, invalid := s.invalid + (g.length - 1) }

/-- `recognize_mser` (38–185) on `n` regions. -/
def recognizeO (cfg : Cfg) (merged : Nat → Bool) (n : Nat) (s : RecSt) : Option RecSt :=
  match (List.range n).foldlM (resolve merged n) s with
  | none => none
  | some s =>
    match (List.range n).foldlM (visitO cfg (n + 256)) s with
    | none => none
    | some s =>
      (List.range n).foldlM (dedupO cfg) (if 0 < cfg.delta ∧ 0 ≤ cfg.nms then (List.range n).foldl (nmsO cfg) s else s)

/-- The `n` regions as recognition finds them. -/
def toR (n : Nat) (regs : Nat → Reg) : RForest Nat := fun r =>
  if r < n then
    { gray := (regs r).gray, parent := (regs r).parent, flag := (regs r).flag, size := (regs r).size, var := (regs r).var
      counted := false }
  else { gray := 0, parent := none, flag := .unknown, size := 0, var := -1, counted := false }

/-- `recognize_mser`: the detector afterwards and `m_invalid_er_number`.  All pointers to regions that recognition
follows are parents of regions; one that does not point to a region is undefined behaviour. -/
def recognize (cfg : Cfg) (s : St) : Option (St × Nat) :=
  if ∀ r < s.nreg, ∀ p, (s.regs r).parent = some p → p < s.nreg then
    match recognizeO cfg (fun r => (s.regs r).merged) s.nreg ⟨toR s.nreg s.regs, fun r => (s.regs r).short, 0⟩ with
    | none => none
    | some t =>
      some ({ s with regs := fun r =>
                if r < s.nreg then
                  { s.regs r with parent := (t.R r).parent, flag := (t.R r).flag, var := (t.R r).var, short := t.short r }
                else s.regs r },
            t.invalid)
  else none

/-- A record `img_mser` with its own points (`Memory_Type_Self`). -/
structure RecO where
  gray : Int
  size : Nat
  points : List (Int × Int)
  rect : Rectangle.Rect
deriving DecidableEq

/-- The record as the constructor of `img_mser` leaves it (img_mser_base.h 20–25). -/
def RecO.fresh : RecO := ⟨0, 0, [], ⟨0, 0, 0, 0⟩⟩

/-- The loop over the points of a region (203–206): `k` points from `o` on.  `m_link_pts` has `cells` entries. -/
def copyPts (pts : Nat → Point) (cells : Nat) : Nat → Option Nat → Rectangle.Rect → Option (List (Int × Int) × Rectangle.Rect)
  | 0, _, b => some ([], b)
  | _ + 1, none, _ => none
  | k + 1, some c, b =>
    if c < cells then
      match copyPts pts cells k (pts c).next (b.appendPoint ((pts c).x, (pts c).y)) with
      | none => none
      | some (l, b) => some (((pts c).x, (pts c).y) :: l, b)
    else none

/-- The record of a region (194–209). -/
def recO (gm : Nat) (s : St) (r : Nat) : Option RecO :=
  let x := s.regs r
  match copyPts s.pts s.D.cells x.size (some x.head) ⟨0, 0, 0, 0⟩ with
  | none => none
  | some (l, b) => some ⟨if gm = 0 then x.gray else 255 - x.gray, x.size, l, b⟩

/-- `extract_pixel` (187–211): `ers` is resized once, then its first elements are filled. -/
def extractO (gm : Nat) (s : St) (invalid : Nat) : Option (List RecO) :=
  match ((List.range s.nreg).filter fun r => (s.regs r).flag = .valid).mapM (recO gm s) with
  | none => none
  | some l => if invalid ≤ s.nreg ∧ l.length ≤ s.nreg - invalid then
      some (l ++ List.replicate (s.nreg - invalid - l.length) RecO.fresh) else none

/-- One gray direction (img_mser_base.cpp 91–108). -/
def channel (cfg : Cfg) (fm : Bool) (gm : Nat) (s : St) : Option (St × List RecO) :=
  match buildTree fm gm s with
  | none => none
  | some s =>
    match recognize cfg s with
    | none => none
    | some (s, invalid) =>
      match extractO gm s invalid with
      | none => none
      | some l => some (s, l)

/-- What the detector keeps for the next image. -/
def toDet (s : St) : Det := ⟨s.area, s.regs, s.nreg, s.cap, s.pcap⟩

/-- `clear_memory_cache` (428–442). -/
def clearCache (d : Det) : Det := { d with stackSize := 0, nreg := 0, cap := 0, pcap := 0 }

/-- `img_mser_base::extract` (img_mser_base.cpp 74–116); `fm`, `fb` are `m_from_min_max[0]`, `[1]`.  `m_max_point` is
`cfg.maxPoint`.  A channel that is not asked for stays empty. -/
def extract (cfg : Cfg) (fm fb : Bool) (d : Det) (W H : Nat) (eight : Bool) (mask : Mask) (src : Nat → Nat → Nat) :
    Option (Det × List RecO × List RecO) :=
  match allocate d W H eight mask src with
  | none => none
  | some s =>
    match (if fm then channel cfg fm 0 s else some (s, [])) with
    | none => none
    | some (s, dark) =>
      match (if fb then channel cfg fm 255 s else some (s, [])) with
      | none => none
      | some (s, bright) => some (toDet s, dark, bright)

end Verif.Original
