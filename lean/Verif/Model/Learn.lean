import Verif.Spec.Learn

/-!
# Softmax, quadratic loss and reduction

/repo/basicmath/src/mt_mat_math_operation.cpp with exact arithmetic.
-/

namespace Verif.Learn

open Classical in
/-- The largest value of a row, lines 214–222. -/
noncomputable def maxLoop (x : ℝ) (l : List ℝ) : ℝ := l.foldl (fun m v => if v > m then v else m) x

/-- The exponentials of a row, lines 228–231. -/
noncomputable def exps : List ℝ → List ℝ
  | [] => []
  | x :: l => (x :: l).map fun v => Real.exp (v - maxLoop x l)

/-- One row of `softmax`, lines 212–241; `none` for a division by zero. -/
noncomputable def softmax (row : List ℝ) : Option (List ℝ) :=
  let s := (exps row).foldl (· + ·) 0
  if s = 0 then none else some ((exps row).map (· / s))

/-- Lines 297–302 for element `e` and `c`; the matching element is always the first one (line 297).  `none`: an access outside of the arrays.  An element
of the matching array that is not a number is `none`. -/
def quadChan (n ch : Nat) (src : Nat → ℚ) (mat : Nat → Option ℚ) (e : Nat) (dst : Nat → ℚ) (c : Nat) : Option (Nat → ℚ) :=
  if n * ch ≤ c then none
  else match mat c with
    | none => some dst
    | some v =>
      if n * ch ≤ e * ch + c ∨ ch ≤ c then none
      else some fun i => if i = c then dst i + (src (e * ch + c) - v) * (src (e * ch + c) - v) / 2 else dst i

/-- Lines 299–303: `c` runs over the dimensions. -/
def quadElement (dims n ch : Nat) (src : Nat → ℚ) (mat : Nat → Option ℚ) (dst : Nat → ℚ) (e : Nat) : Option (Nat → ℚ) :=
  (List.range dims).foldlM (quadChan n ch src mat e) dst

/-- `quardratic_loss`, lines 283–307, for continuous arrays; `init` is what is in the new array of line 287, which is not filled. -/
def quadLoss (dims n ch : Nat) (src : Nat → ℚ) (mat : Nat → Option ℚ) (init : Nat → ℚ) : Option (Nat → ℚ) :=
  (List.range n).foldlM (quadElement dims n ch src mat) init

/-- `mt_mat::Reduce_Type` without the standard deviations. -/
inductive ReduceType where
  | sum
  | mean
  | max
  | min
  | variance
  | unbiased

/-- Lines 742 and 768: a sum and a mean. -/
def lineSum (l : List ℚ) : ℚ := l.foldl (· + ·) 0

/-- `reduce`, lines 688–786, for one line along the reduced dimension and one channel; `none` for a division by zero and for an empty line. -/
def reduceLine (t : ReduceType) (l : List ℚ) : Option ℚ :=
  match l with
  | [] => none
  | x :: _ =>
    match t with
    | .sum => some (lineSum l)
    | .mean => some (lineSum l / l.length)
    | .max => some (l.foldl (fun m v => if v > m then v else m) x)
    | .min => some (l.foldl (fun m v => if v < m then v else m) x)
    | .variance =>
      let mean := lineSum l / l.length
      some (l.foldl (fun s v => s + (v - mean) * (v - mean)) 0 / l.length)
    | .unbiased =>
      let mean := lineSum l / l.length
      if l.length = 1 then none else some (l.foldl (fun s v => s + (v - mean) * (v - mean)) 0 / ((l.length : ℚ) - 1))

end Verif.Learn
