import Mathlib.Algebra.BigOperators.Group.List.Basic
import Mathlib.Data.Rat.Defs

/-!
# Specification: pooling in two dimensions
-/

namespace Verif.Spec

/-- A place is in the window of `kr` rows and `kc` columns from row `r` and column `c` on, and in the array. -/
def InWindow (rows cols kr kc r c : Nat) (p : Nat × Nat) : Prop :=
  r ≤ p.1 ∧ p.1 < r + kr ∧ p.1 < rows ∧ c ≤ p.2 ∧ p.2 < c + kc ∧ p.2 < cols

/-- `w` lists the places of the window, each once; there are some. -/
def ListsWindow (rows cols kr kc r c : Nat) (w : List (Nat × Nat)) : Prop :=
  w ≠ [] ∧ w.Nodup ∧ ∀ p, p ∈ w ↔ InWindow rows cols kr kc r c p

/-- `p` is the first place of the window, by rows, whose value no other value of the window precedes. -/
def FirstBest (before : ℚ → ℚ → Prop) (src : Nat → Nat → ℚ) (rows cols kr kc r c : Nat) (p : Nat × Nat) : Prop :=
  InWindow rows cols kr kc r c p ∧ ∀ q, InWindow rows cols kr kc r c q →
    ¬ before (src q.1 q.2) (src p.1 p.2) ∧ (src q.1 q.2 = src p.1 p.2 → p.1 < q.1 ∨ p.1 = q.1 ∧ p.2 ≤ q.2)

end Verif.Spec
