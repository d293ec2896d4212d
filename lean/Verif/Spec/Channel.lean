import Mathlib.Data.Nat.Basic
import Mathlib.Data.Int.Order.Basic

/-!
# Specification: the picture of a set of regions
-/

namespace Verif.Spec

/-- `level` and `id` show at every pixel the region of most extreme level that covers it: the lowest for dark regions, the
highest for bright ones. Pixels covered by no region have the id −1. `regions` lists level and points. -/
structure Shows (dark : Bool) (regions : List (Nat × List (Int × Int))) (level : Int × Int → Nat) (id : Int × Int → Int)
    (p : Int × Int) : Prop where
  covered : (∃ r ∈ regions, p ∈ r.2) → ∃ (j : Nat) (r : Nat × List (Int × Int)), regions[j]? = some r ∧ p ∈ r.2 ∧ level p = r.1 ∧ id p = (j : Int) ∧
    ∀ q ∈ regions, p ∈ q.2 → if dark then r.1 ≤ q.1 else q.1 ≤ r.1
  uncovered : (∀ r ∈ regions, p ∉ r.2) → id p = -1

end Verif.Spec
