import Verif.Model.Grid
import Verif.Spec.Image

/-!
# Model: 8-neighbour mode

`m_connected_type = img_Connected_Type_8_Neibour`, /repo/basicimg/src/img_fast_mser_v2.cpp 162–171,
192–195, 276, 314–318.
-/

namespace Verif.Flood

/-- `points + dir[k]` with the 8-neighbour directions (163–170). -/
def nb8 (w i : Nat) : Nat → Nat
  | 1 => i + 1
  | 2 => i + 1 - (w + 2)
  | 3 => i - (w + 2)
  | 4 => i - 1 - (w + 2)
  | 5 => i - 1
  | 6 => i - 1 + (w + 2)
  | 7 => i + (w + 2)
  | 8 => i + 1 + (w + 2)
  | _ => i

/-- A patch in 8-neighbour mode.  The tour still is `while (nbr_index <= 4)` (276), so `nd` is 4.
(`Flood.init` gives padding the counter `nd + 1`, the code gives it 9; it is only ever compared with
0.) -/
def patch8 (w h : Nat) (img : Nat → Nat → Nat) (gm : Nat) : Patch :=
  { gridPatch w h img gm with nb := nb8 w }

/-- `*points = (nbr_index << m_dir_shift) | er_index` with `m_dir_shift = 28` (194, 314). -/
def word8 (nbr er : Nat) : Nat := (nbr <<< 28) ||| er

/-- The `u32` index `*points - m_boundary_pixel` with `m_boundary_pixel = 9 << 28` (195, 316). -/
def index8 (word : Nat) : Nat := (word + 2 ^ 32 - 9 <<< 28) % 2 ^ 32

end Verif.Flood
