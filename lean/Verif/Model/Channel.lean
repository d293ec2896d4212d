import Mathlib.Data.Nat.Basic
import Mathlib.Data.Int.Order.Basic

/-!
# Model: `img_mser_result::generate_mser_channel_image` (/repo/basicimg/src/img_mser_result.cpp 60–95)

Points outside the image violate the assertion of `mt_mat::ptr` (mt_mat.h 453): outcome `none`, as is an index outside
a vector.
-/

namespace Verif.Channel

/-- `img_mser_component` (/repo/basicimg/include/img_mser_result.h 56–65): level and points. -/
abbrev Comp := Nat × List (Int × Int)

/-- `img_mser_channel_image` (67–75). -/
structure Image where
  level : Int × Int → Nat
  id : Int × Int → Int

/-- The comparisons 73 and 86. -/
def better (dark : Bool) (a b : Nat) : Bool := if dark then decide (a < b) else decide (b < a)

/-- The inner loops 70–77 and 83–90: `lvl` is the level compared, `wr` the one written. -/
def paint (W H : Nat) (dark : Bool) (j : Nat) (lvl : Nat) (wr : Option Nat) : List (Int × Int) → Image → Option Image
  | [], c => some c
  | p :: ps, c =>
    if 0 ≤ p.1 ∧ p.1 < W ∧ 0 ≤ p.2 ∧ p.2 < H then
      if better dark lvl (c.level p) then
        wr.bind fun w => paint W H dark j lvl wr ps
          ⟨fun q => if q = p then w else c.level q, fun q => if q = p then (j : Int) else c.id q⟩
      else paint W H dark j lvl wr ps c
    else none

/-- The outer loops 69–78 and 82–91; `other` is `m_msers[0]`, whose level is written in both branches (74, 87). -/
def paintAll (W H : Nat) (dark : Bool) (other : List Comp) : Nat → List Comp → Image → Option Image
  | _, [], c => some c
  | j, r :: rs, c => (paint W H dark j r.1 (other[j]?.map Prod.fst) r.2 c).bind (paintAll W H dark other (j + 1) rs)

/-- `generate_mser_channel_image`: dark regions, bright regions. -/
def channelImage (W H : Nat) (msers0 msers1 : List Comp) (fromMin : Bool) : Option Image :=
  if fromMin then paintAll W H true msers0 0 msers0 ⟨fun _ => 255, fun _ => -1⟩
  else paintAll W H false msers0 0 msers1 ⟨fun _ => 0, fun _ => -1⟩

end Verif.Channel
