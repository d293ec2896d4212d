import Verif.Spec.Conv

/-!
# Convolution

`mt_mat::conv`, /repo/basicmath/src/mt_convolution.cpp, in one dimension with exact arithmetic, and its channels.  The task of the MKL (`vslConvExec`) is
trusted to give the element `start + i * decimation` of the complete convolution as result `i`.
-/

namespace Verif.Conv

open Verif.Spec

/-- `full_sizes[i]`, line 175. -/
def fullSize (n k : Nat) : Int := (n : Int) + k - 1

/-- `sizes[i]` before the stride, lines 176 and 188–195. -/
def size (b : ConvBoundary) (n k : Nat) : Int :=
  match b with
  | .full => fullSize n k
  | .valid => (n : Int) - k + 1
  | .same => n

/-- `starts[i]`, lines 177 and 198–200. -/
def startOf (b : ConvBoundary) (n k : Nat) : Int :=
  match b with
  | .full => 0
  | b => Int.tdiv (fullSize n k - size b n k + 1) 2

/-- `sizes[i]`, line 204. -/
def resultSize (b : ConvBoundary) (n k stride : Nat) : Int := Int.tdiv (size b n k - 1) stride + 1

/-- An element of the complete convolution (MKL, called in lines 122–140): `m` is its place. -/
def complete (src ker : List ℚ) (m : Int) : ℚ := ((List.range ker.length).map fun j => ker.getD j 0 * signalAt src (m - j)).sum

/-- `conv`, lines 146–216, one channel; `none` when the assertion of line 163 fails or a size is not positive. -/
def conv (b : ConvBoundary) (stride : Nat) (src ker : List ℚ) : Option (List ℚ) :=
  if src.length = 0 ∨ ker.length = 0 ∨ stride = 0 then none
  else if size b src.length ker.length ≤ 0 then none
  else some ((List.range (resultSize b src.length ker.length stride).toNat).map fun i : Nat =>
    complete src ker (startOf b src.length ker.length + (i : Int) * stride))

/-- Lines 45–49: the kernel channel that is used for an input channel and an output channel, by `align_type` row or column. -/
def kernelChannel (row : Bool) (inputs outputs i o : Nat) : Nat := if row then i * outputs + o else o * inputs + i

/-- Lines 75–81: the input channel and the kernel channel of an output channel, by `align_type` cross row or cross column. -/
def crossChannels (row : Bool) (inputs kernels o : Nat) : Nat × Nat :=
  if row then (o / kernels, o % kernels) else (o % inputs, o / inputs)

end Verif.Conv
