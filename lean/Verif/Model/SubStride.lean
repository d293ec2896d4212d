import Verif.Model.Mat
import Verif.Model.DataType

/-!
# Every `n`-th element of an array

`mt_mat::sub_stride`, /repo/basicmath/src/mt_mat_math_operation.cpp 2789–2814.
-/

namespace Verif.Mat

open Verif.DataType

/-- The new sizes and steps, lines 2794–2803; `none` when the numbers of dimensions differ (line 2790) or the size is not found. -/
def strideDims : List Dim → List Int → Option (List Dim)
  | [], [] => some []
  | d :: ds, s :: ss =>
    match poolSize (d.size.toNat + 1) d.size s s, strideDims ds ss with
    | some n, some r => some (⟨n, d.step * s⟩ :: r)
    | _, _ => none
  | _, _ => none

/-- `sub_stride`. -/
def subStride (m : Mat) (strides : List Int) : Option Mat := (strideDims m.dims strides).map fun ds => { m with dims := ds }

end Verif.Mat
