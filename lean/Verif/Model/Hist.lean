import Mathlib.Algebra.Order.Ring.Rat

/-!
# Histograms

`mt_hist::hist`, /repo/basicmath/src/mt_hist.cpp 8–34, with rational numbers for `f64`.
-/

namespace Verif.Hist

/-- `mt_helper::compute_max`, /repo/basicmath/include/mt_helper.h; `none` for an empty array (`&data[0]`). -/
def largest : List ℚ → Option ℚ
  | [] => none
  | x :: l => some (l.foldl (fun m y => if m < y then y else m) x)

/-- `mt_helper::compute_min`. -/
def smallest : List ℚ → Option ℚ
  | [] => none
  | x :: l => some (l.foldl (fun m y => if y < m then y else m) x)

/-- Lines 20–24. -/
def bins (gap : ℚ) : Nat → ℚ → List (ℚ × ℚ)
  | 0, _ => []
  | k + 1, base => (base, base + gap) :: bins gap k (base + gap)

/-- Lines 27–31 for one number; `none` for an index outside of `numbers`. -/
def bump (x : ℚ) : List (ℚ × ℚ) → List Int → Option (List Int)
  | [], ns => some ns
  | r :: rs, n :: ns => (bump x rs ns).map fun l => (if x ≥ r.1 ∧ x < r.2 then n + 1 else n) :: l
  | r :: rs, [] => if x ≥ r.1 ∧ x < r.2 then none else bump x rs []

/-- Lines 26–32. -/
def countAll (rs : List (ℚ × ℚ)) : List ℚ → List Int → Option (List Int)
  | [], ns => some ns
  | x :: l, ns => (bump x rs ns).bind (countAll rs l)

/-- `hist` with the given `numbers` and a positive number of bins. -/
def hist (numbers : List Int) (data : List ℚ) (n : Nat) : Option (List (ℚ × ℚ) × List Int) :=
  (largest data).bind fun mx => (smallest data).bind fun mn =>
  let rs := bins ((mx + mx / 100 - mn) / n) n mn
  (countAll rs data numbers).map fun ns => (rs, ns)

end Verif.Hist
