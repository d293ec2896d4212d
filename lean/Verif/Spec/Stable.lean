import Mathlib.Algebra.Order.Ring.Unbundled.Rat
import Mathlib.Data.Rat.Defs
import Verif.Spec.Conn

/-!
# Specification: stability of regions and which regions are selected

Nothing here refers to the model of the code: a region tree and the configured limits determine the
selection.
-/

namespace Verif.Spec

open Relation (ReflTransGen)

/-- What is assumed of rounding to a floating point format: it keeps the order, is symmetric, and does not
round a quotient of positive 31-bit integers to zero. -/
structure Rounding (rnd : ℚ → ℚ) : Prop where
  mono : ∀ x y, x ≤ y → rnd x ≤ rnd y
  neg : ∀ x, rnd (-x) = -rnd x
  pos : ∀ a b : Nat, 0 < a → 0 < b → b < 2 ^ 31 → 0 < rnd ((a : ℚ) / (b : ℚ))

/-- What a component tree of a gray image satisfies (see `IsComponentTree.ok`): parents exist, are brighter
and larger; there are 256 gray levels; no region is empty. -/
structure RegionTree.Ok {α ι : Type} (T : RegionTree α ι) : Prop where
  parent : ∀ r, T.isReg r → ∀ p, T.parent r = some p → T.isReg p ∧ T.gray r < T.gray p ∧ T.size r < T.size p
  gray_lt : ∀ r, T.isReg r → T.gray r < 256
  size_pos : ∀ r, T.isReg r → 0 < T.size r

/-- The configuration of the selection. -/
structure Limits where
  delta : Int
  minPoint : Int
  maxPoint : Int
  stable : ℚ
  nms : ℚ
  rnd : ℚ → ℚ

variable {α ι : Type}

/-- `s` is the largest among `r` and those of its ancestors whose level is at most `lim`. -/
structure Widest (T : RegionTree α ι) (lim : Int) (r s : ι) : Prop where
  anc : ReflTransGen (fun a b => T.parent a = some b) r s
  within : s = r ∨ (T.gray s : Int) ≤ lim
  last : ∀ p, T.parent s = some p → lim < (T.gray p : Int)

/-- The stability value of `r`; `none` is "not available". -/
def Stability (T : RegionTree α ι) (L : Limits) (r : ι) (v : Option ℚ) : Prop :=
  ∃ s, Widest T (T.gray r + L.delta) r s ∧
    (((T.parent s).isSome ∨ (T.gray s : Int) = T.gray r + L.delta) ∧
        v = some (L.rnd (L.rnd (((T.size s : Int) - (T.size r : Int) : Int) : ℚ) / L.rnd ((T.size r : Int) : ℚ))) ∨
      (T.parent s = none ∧ (T.gray s : Int) ≠ T.gray r + L.delta) ∧ v = none)

/-- `x` is the number that stands for the stability value `v`: itself, or -1 for "not available". -/
def Holds (v : Option ℚ) (x : ℚ) : Prop := v = none ∧ x = -1 ∨ v = some x ∧ 0 ≤ x

/-- `r` is less stable than `q` by more than the similarity threshold. -/
def LessStable (T : RegionTree α ι) (L : Limits) (r q : ι) : Prop :=
  ∃ v w, Stability T L r (some v) ∧ Stability T L q (some w) ∧ L.nms < L.rnd (v - w)

/-- `r` is suppressed by a child one level below or by its parent one level above. -/
def Suppressed (T : RegionTree α ι) (L : Limits) (r : ι) : Prop :=
  (∃ c, T.isReg c ∧ T.parent c = some r ∧ T.gray r = T.gray c + 1 ∧ LessStable T L r c) ∨
  (∃ p, T.parent r = some p ∧ T.gray p = T.gray r + 1 ∧ LessStable T L r p)

/-- The regions selected as maximally stable. -/
structure Selected (T : RegionTree α ι) (L : Limits) (r : ι) : Prop where
  reg : T.isReg r
  stable : ∀ v, Stability T L r (some v) → v ≤ L.stable
  min : L.minPoint ≤ (T.size r : Int)
  max : (T.size r : Int) ≤ L.maxPoint
  parent : T.parent r ≠ none
  nms : 0 ≤ L.nms → ¬ Suppressed T L r

/-- The regions admitted by a detector that also reports the region of all pixels and looks at the stability value only
if `delta` is positive. -/
structure Admitted (T : RegionTree α ι) (L : Limits) (r : ι) : Prop where
  reg : T.isReg r
  stable : 0 < L.delta → ∀ v, Stability T L r (some v) → v ≤ L.stable
  min : L.minPoint ≤ (T.size r : Int)
  max : (T.size r : Int) ≤ L.maxPoint
  nms : 0 < L.delta → 0 ≤ L.nms → ¬ Suppressed T L r

end Verif.Spec
