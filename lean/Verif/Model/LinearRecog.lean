import Verif.Model.Recognize
import Verif.Model.Linear

/-!
# Model: the linear detector, recognition of stable regions

`img_linked_linear_mser::recognize_mser` and what it calls,
/repo/basicimg/src/img_linked_linear_mser.cpp 66–92, 596–684, 804–872 and 1162–end.  Line numbers refer to that
file.  Regions, configuration and rounding are those of `Verif.Model.Recognize`; this detector has no merged
regions.  `get_duplicated_regions` (1162–) is, loop body for loop body, that of V2 and is taken from there
(`Recog.getDuplicated`), as are the loops of `remove_duplicated` over the ordered regions (821–862: `Recog.dedup`;
863–869: `Recog.keepAll`).  The outcome `none` stands for an access outside an array or an endless loop.
-/

namespace Verif.Linear

open Function (update)
open Verif.Recog

variable {ι : Type} [DecidableEq ι]

/-- The loop over ancestors (72–75), at most `n` iterations: `temp` and the last `parent`. -/
def climbL (R : RForest ι) (thr : Int) : Nat → ι → Option ι → Option (ι × Option ι)
  | _, temp, none => some (temp, none)
  | n, temp, some p =>
    if ((R p).gray : Int) ≤ thr then
      match n with
      | 0 => none
      | n + 1 => climbL R thr n p (R p).parent
    else some (temp, some p)

/-- `calculate_variation` (66–92). -/
def calcVarL (cfg : Cfg) (R : RForest ι) (r : ι) : Option (RForest ι) :=
  let thr : Int := (R r).gray + cfg.delta
  match climbL R thr 256 r (R r).parent with
  | none => none
  | some (temp, parent) =>
    some (setVar R r
      (if parent.isSome ∨ ((R temp).gray : Int) = thr then ratio32 cfg (R temp).size (R r).size else -1))

/-- Body of the first loop of `recognize_mser_normal` (616–635). -/
def visitL (cfg : Cfg) (s : RSt ι) (r : ι) : Option (RSt ι) :=
  match (if 0 < cfg.delta then calcVarL cfg s.R r else some s.R) with
  | none => none
  | some R =>
    if 0 < cfg.delta ∧ cfg.stable < (R r).var then some { s with R := setFlag R r .invalid }
    else if badSize cfg (R r) then some { s with R := setFlag R r .invalid }
    else some ({ s with R := R }.count (R r).gray 1)

/-- Body of the second loop of `recognize_mser_normal` (644–668). -/
def nmsL (cfg : Cfg) (s : RSt ι) (r : ι) : RSt ι :=
  let x := s.R r
  match x.parent with
  | none => s
  | some p =>
    let y := s.R p
    if x.flag = .invalid ∧ y.flag = .invalid then s
    else if 0 ≤ x.var ∧ 0 ≤ y.var ∧ y.gray = x.gray + 1 then
      let sub := cfg.r32 (y.var - x.var)
      if cfg.nms < sub then
        if y.flag ≠ .invalid then { s with R := setFlag s.R p .invalid }.count y.gray (-1) else s
      else if cfg.nms < -sub then
        if x.flag ≠ .invalid then { s with R := setFlag s.R r .invalid }.count x.gray (-1) else s
      else s
    else s

/-- `recognize_mser_normal` (601–671) before `remove_duplicated`; `order` are the regions `m_regions[0 … m_er_number)`. -/
def selectL (cfg : Cfg) (order : List ι) (R : RForest ι) : Option (RSt ι) :=
  match order.foldlM (visitL cfg) ⟨R, fun _ => 0, 0⟩ with
  | none => none
  | some s => some (if 0 < cfg.delta ∧ 0 ≤ cfg.nms then order.foldl (nmsL cfg) s else s)

/-- `m_gray_order_regions[m_start_indexes[gray]++] = region` (812–814) into the `msize` cells of `m_heap`. -/
def placeL (R : RForest ι) (msize : Nat) (o : Recog.Ord ι) (r : ι) : Option (Recog.Ord ι) :=
  if (R r).flag ≠ .invalid then
    let i := o.pos (R r).gray
    if 0 ≤ i ∧ i < (msize : Int) then
      some { pos := update o.pos (R r).gray (i + 1), cells := update o.cells i.toNat (some r) }
    else none
  else some o

/-- Ordering by gray level (805–818). -/
def orderL (s : RSt ι) (order : List ι) (msize : Nat) : Option (List ι) :=
  match order.foldlM (placeL s.R msize) ⟨startIndex s.lev, fun _ => none⟩ with
  | none => none
  | some o => readCells o.cells (startIndex s.lev 256).toNat

/-- `recognize_mser` (596–599): `recognize_mser_normal` with `remove_duplicated` (804–871). -/
def recognizeL (cfg : Cfg) (order : List ι) (hsize : Nat) (R : RForest ι) : Option (Recognized ι) :=
  match selectL cfg order R with
  | none => none
  | some s =>
    match orderL s order hsize with
    | none => none
    | some arr => if 0 < cfg.dup then dedup cfg s.R arr else some (keepAll s.R arr)

/-- The regions as `extract_pass` leaves them: `init_comp` and `new_region` set `m_region_flag = Flag_Unknow` (9, 21);
`v` is whatever `m_var` contains (its place holds `m_short_cut_offset`, 13 and 25).  Entries from `nreg` on were
never written in this pass; they are left out here, and `recognize` fails if one could be read. -/
def forestL (nreg : Nat) (regs : Nat → Reg) : Connect.Forest Nat := fun r =>
  if r < nreg then { gray := (regs r).gray, parent := (regs r).parent, merged := false, size := (regs r).size }
  else { gray := 0, parent := none, merged := false, size := 0 }

/-- `recognize_mser` after `build_tree`.  A parent that is not one of the regions of this pass is undefined
behaviour. -/
def recognize (cfg : Cfg) (D : Dim) (s : St) (v : Nat → ℚ) : Option (Recognized Nat) :=
  if ∀ r < s.nreg, ∀ p, (s.regs r).parent = some p → p < s.nreg then
    recognizeL cfg (List.range s.nreg) D.hsize (ofForest (forestL s.nreg s.regs) v)
  else none

end Verif.Linear
