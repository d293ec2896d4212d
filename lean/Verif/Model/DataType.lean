import Verif.Model.Strings

/-!
# `mt_Depth_Channel` and the sizes of results of convolution and pooling
-/

namespace Verif.DataType
open Verif.Str

/-- `mt_Depth_Channel(depth, channel)` (mt_data_type.h 43–47) for channels from 1 on. -/
def pack (depth channel : Nat) : Nat := ((channel - 1) <<< 16) ||| depth

/-- `channel()` (mt_data_type.h 49–51). -/
def maskChannel (mask : Nat) : Nat := ((mask &&& 0x7fff0000) >>> 16) + 1

/-- `depth()` (mt_data_type.h 53–55). -/
def maskDepth (mask : Nat) : Nat := mask &&& 0x0000ffff

/-- `depth_str` (mt_data_type.cpp 4–32); depths in the order of the enumeration (mt_data_type.h 7–20). -/
def depthStr : Nat → Text
  | 0 => ['m', 't', '_', 'U', '8']
  | 1 => ['m', 't', '_', 'I', '8']
  | 2 => ['m', 't', '_', 'U', '1', '6']
  | 3 => ['m', 't', '_', 'I', '1', '6']
  | 4 => ['m', 't', '_', 'U', '3', '2']
  | 5 => ['m', 't', '_', 'I', '3', '2']
  | 6 => ['m', 't', '_', 'U', '6', '4']
  | 7 => ['m', 't', '_', 'I', '6', '4']
  | 8 => ['m', 't', '_', 'F', '3', '2']
  | 9 => ['m', 't', '_', 'F', '6', '4']
  | 10 => ['m', 't', '_', 'U', 's', 'e', 'r']
  | _ => ['m', 't', '_', 'U', 'n', 'k', 'n', 'o', 'w']

/-- `depth_i32` (mt_data_type.cpp 34–58). -/
def depthOf (t : Text) : Nat :=
  if t = ['m', 't', '_', 'U', '8'] then 0
  else if t = ['m', 't', '_', 'I', '8'] then 1
  else if t = ['m', 't', '_', 'U', '1', '6'] then 2
  else if t = ['m', 't', '_', 'I', '1', '6'] then 3
  else if t = ['m', 't', '_', 'I', '3', '2'] then 5
  else if t = ['m', 't', '_', 'U', '3', '2'] then 4
  else if t = ['m', 't', '_', 'I', '6', '4'] then 7
  else if t = ['m', 't', '_', 'U', '6', '4'] then 6
  else if t = ['m', 't', '_', 'F', '3', '2'] then 8
  else if t = ['m', 't', '_', 'F', '6', '4'] then 9
  else 10

/-- `%d` for numbers that are not negative. -/
def decimal (n : Nat) : Text :=
  if n < 10 then [Char.ofNat (48 + n)] else decimal (n / 10) ++ [Char.ofNat (48 + n % 10)]

/-- `atoi` of a text without leading blanks and sign. -/
def atoiFrom : Nat → Text → Nat
  | n, [] => n
  | n, c :: cs => if 48 ≤ c.toNat ∧ c.toNat ≤ 57 then atoiFrom (n * 10 + (c.toNat - 48)) cs else n

/-- `depth_channel_str` (mt_data_type.cpp 60–62). -/
def typeStr (mask : Nat) : Text := depthStr (maskDepth mask) ++ 'C' :: decimal (maskChannel mask)

/-- `depth_channel_i32` (mt_data_type.cpp 64–76).  `none`: no first element. -/
def typeOf (t : Text) : Option Nat :=
  match split t ['C'] with
  | some (d :: c :: _) => some (pack (depthOf d) (atoiFrom 0 c))
  | some [d] => some (pack (depthOf d) 1)
  | _ => none

/-- `mt_Conv_Boundary_Type` (mt_data_type.h 128–132). -/
inductive Boundary
  | valid
  | full
  | same
  deriving DecidableEq

/-- `get_conv_result_size` (mt_mat_helper.cpp 103–117). -/
def convSize (src kernel stride : Int) (b : Boundary) : Int :=
  let res := match b with
    | .full => src + kernel - 1
    | .same => src
    | .valid => src - kernel + 1
  (res - 1).tdiv stride + 1

/-- The loop of `get_pooling_result_size` (mt_mat_helper.cpp 125–144), at most `f` rounds.  `none`: not yet ended. -/
def poolLoop (src kernel stride : Int) : Nat → Int → Int → Option Int
  | 0, _, _ => none
  | f + 1, res, pos =>
    if pos ≥ src then some res
    else if pos + kernel ≥ src then some (res + 1)
    else poolLoop src kernel stride f (res + 1) (pos + stride)

/-- `get_pooling_result_size` (mt_mat_helper.cpp 125–144). -/
def poolSize (f : Nat) (src kernel stride : Int) : Option Int := poolLoop src kernel stride f 0 0

end Verif.DataType
