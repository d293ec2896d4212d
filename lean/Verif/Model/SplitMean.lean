import Mathlib.Algebra.Order.Ring.Rat
import Mathlib.Algebra.BigOperators.Group.List.Basic
import Mathlib.Data.List.Sort

/-!
# Splitting numbers into two parts

`mt_helper::split_array_to_max_mean_sub_arrays`, /repo/basicmath/src/mt_helper.cpp 283–328, with rational numbers for `f32`.
-/

namespace Verif.SplitMean

/-- Line 302: the right mean is a quotient in `i32`. -/
def rightMean (d : List Int) (i : Nat) : Int := (d.drop i).sum.tdiv ((d.drop i).length : Int)

/-- Lines 308, 309, 311. -/
def difference (d : List Int) (i : Nat) : ℚ := (rightMean d (i + 1) : ℚ) - ((d.take (i + 1)).sum : ℚ) / ((i + 1 : Nat) : ℚ)

/-- Lines 311–315; `none` is the start with `-FLT_MAX` and -1. -/
def better (d : List Int) (best : Option Nat) (i : Nat) : Option Nat :=
  match best with
  | none => some i
  | some k => if difference d i > difference d k then some i else some k

/-- Lines 305–316. -/
def splitIndex (d : List Int) : Option Nat := (List.range (d.length - 1)).foldl (better d) none

/-- All sums fit into `i32`. -/
def sumsFit (d : List Int) : Bool :=
  (List.range (d.length + 1)).all fun k => decide (-2147483648 ≤ (d.take k).sum ∧ (d.take k).sum ≤ 2147483647 ∧
    -2147483648 ≤ (d.drop k).sum ∧ (d.drop k).sum ≤ 2147483647)

/-- The parts `a` and `b`, where `b` is appended to; `none` when a sum overflows. -/
def split (a b input : List Int) : Option (List Int × List Int) :=
  if input = [] then some (a, b)
  else
    let d := input.insertionSort (· ≤ ·)
    if sumsFit d then
      let n := match splitIndex d with
        | none => 0
        | some k => k + 1
      some (d.drop n, b ++ d.take n)
    else none

end Verif.SplitMean
