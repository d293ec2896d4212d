import Verif.Spec.Pooling
import Mathlib.Algebra.Order.Ring.Rat

/-!
# Pooling

/repo/basicmath/src/mt_pooling.cpp, arrays of two dimensions with one channel (`pooling_2d_channel_1`, `unpooling_2d_channel_1`).  Elements are rational
numbers, so rounding and overflow are left out; an array is a function of row and column together with its sizes.
-/

namespace Verif.Pooling

/-- `mt_Pooling_Type` (/repo/basicmath/include/mt_data_type.h 143). -/
inductive PoolType where
  | first
  | mean
  | sum
  | max
  | min
  | index
  deriving DecidableEq

/-- The rows (or columns) of a loop from `start` to `min(start + kernel, size)`, lines 258 and 266. -/
def span (start kernel size : Nat) : List Nat := List.range' start (min (start + kernel) size - start)

/-- The places of the two inner loops in their order, lines 266–273. -/
def cells (rows cols kr kc r c : Nat) : List (Nat × Nat) := (span r kr rows).flatMap fun i => (span c kc cols).map fun j => (i, j)

/-- Lines 266–273: the sum and the number of the elements. -/
def sumLoop (src : Nat → Nat → ℚ) (w : List (Nat × Nat)) : ℚ × Nat := w.foldl (fun s p => (s.1 + src p.1 p.2, s.2 + 1)) (0, 0)

/-- Lines 302–310 and 340–349: a better element replaces the result and its place. -/
def bestStep (better : ℚ → ℚ → Bool) (cols : Nat) (src : Nat → Nat → ℚ) (s : ℚ × Nat) (p : Nat × Nat) : ℚ × Nat :=
  if better (src p.1 p.2) s.1 then (src p.1 p.2, p.1 * cols + p.2) else s

/-- Lines 296–311 and 335–350: the best element and its place. -/
def best (better : ℚ → ℚ → Bool) (cols : Nat) (src : Nat → Nat → ℚ) (r c : Nat) (w : List (Nat × Nat)) : ℚ × Nat :=
  w.foldl (bestStep better cols src) (src r c, r * cols + c)

/-- One element of the result of `pooling_2d_channel_1` (245–396) and its mask, for the window at row `r` and column `c`; `given` is the element of the
mask that is handed over, used by `mt_Pooling_Type_Index` only.  `none` for a division by zero. -/
def poolAt (t : PoolType) (rows cols kr kc : Nat) (src : Nat → Nat → ℚ) (given r c : Nat) : Option (ℚ × Option Nat) :=
  let w := cells rows cols kr kc r c
  match t with
  | .sum => some ((sumLoop src w).1, none)
  | .mean => if (sumLoop src w).2 = 0 then none else some ((sumLoop src w).1 / (sumLoop src w).2, none)
  | .max => let s := best (fun a b => decide (a > b)) cols src r c w; some (s.1, some s.2)
  | .min => let s := best (fun a b => decide (a < b)) cols src r c w; some (s.1, some s.2)
  | .first => some (src r c, none)
  | .index => some (src (given / cols) (given % cols), none)

/-- `src.at<T>(p) += v`. -/
def addAt (m : Nat × Nat → ℚ) (p : Nat × Nat) (v : ℚ) : Nat × Nat → ℚ := fun q => if q = p then m q + v else m q

/-- Lines 1088–1098: one element of the result is spread. -/
def spread (rows cols kr kc r c : Nat) (y : ℚ) (m : Nat × Nat → ℚ) : Nat × Nat → ℚ :=
  let area := (min (r + kr) rows - r) * (min (c + kc) cols - c)
  (cells rows cols kr kc r c).foldl (fun m p => addAt m p (y / (area : Nat))) m

/-- The windows in the order of the outer loops, lines 1081 and 1087. -/
def grid (R C : Nat) : List (Nat × Nat) := (List.range R).flatMap fun i => (List.range C).map fun j => (i, j)

/-- `mt_mat::unpooling` (1554–1596) for one channel; `mask` is `none` when it is empty.  `none`: the assertion of line 1555, the read of an empty mask
in line 1116, or the unsupported sum (1143). -/
def unpool (t : PoolType) (rows cols kr kc sr sc R C : Nat) (mask : Option (Nat → Nat → Nat)) (y : Nat → Nat → ℚ) : Option (Nat × Nat → ℚ) :=
  if mask.isSome then none
  else match t with
    | .mean => some ((grid R C).foldl (fun m g => spread rows cols kr kc (g.1 * sr) (g.2 * sc) (y g.1 g.2) m) fun _ => 0)
    | .first => some ((grid R C).foldl (fun m g => addAt m (g.1 * sr, g.2 * sc) (y g.1 g.2)) fun _ => 0)
    | .sum => none
    | .max | .min | .index => match mask with
      | none => none
      | some k => some ((grid R C).foldl (fun m g => addAt m (k g.1 g.2 / cols, k g.1 g.2 % cols) (y g.1 g.2)) fun _ => 0)

end Verif.Pooling
