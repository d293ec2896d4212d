import Mathlib.Analysis.SpecialFunctions.Exp

/-!
# Blurring

`img_img::generate_gaussian_kernel` and `img_img::gaussian_blur`, /repo/basicimg/src/img_img.cpp, with real numbers for `f64`; the convolution is not
modelled.
-/

namespace Verif.Gauss

/-- Lines 382–383. -/
noncomputable def weight (size : Nat) (sigma : ℝ) (i : Nat) : ℝ :=
  Real.exp (-0.5 * (((i : ℤ) - (size / 2 : Nat) : ℤ) / sigma) * (((i : ℤ) - (size / 2 : Nat) : ℤ) / sigma))

open Classical in
/-- `generate_gaussian_kernel`, 374–396; `none` when `0 / 0` is computed (it makes all elements of the kernel NaN). -/
noncomputable def kernel (size : Nat) (sigma : ℝ) : Option (List ℝ) :=
  if sigma = 0 ∧ 0 < size then none
  else
    let data := (List.range size).map (weight size sigma)
    some (data.map fun x => x / data.sum)

open Classical in
/-- `gaussian_blur`, 320–354: the horizontal and the vertical kernel.  `auto` is the size of lines 332 and 340 (an odd number that depends on sigma
and the type); `compare_double` is the comparison of real numbers. -/
noncomputable def kernels (auto : ℝ → Nat) (width height : Int) (sx sy : ℝ) : Option (List ℝ × List ℝ) :=
  let sy := if sy < 0 then sx else sy
  let w := if width < 0 then (if sx = 0 then 1 else auto sx) else width.toNat
  let h := if height < 0 then (if sy = 0 then 1 else auto sy) else height.toNat
  let sx := max 0 sx
  let sy := max 0 sy
  (kernel w sx).bind fun kx =>
  if h = w ∧ sx = sy then some (kx, kx) else (kernel w sy).map fun ky => (kx, ky)

end Verif.Gauss
