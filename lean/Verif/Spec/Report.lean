import Verif.Spec.Stable

/-!
# Specification: which regions a detector reports that compares a region with the nearest reported region around it

Nothing here refers to the model of the code.
-/

namespace Verif.Spec

open Relation (ReflTransGen)

variable {α ι : Type}

/-- The configuration: `lo` and `hi` limit the size. -/
structure Criteria where
  delta : Int
  stable : ℚ
  nms : ℚ
  dup : ℚ
  lo : ℚ
  hi : ℚ
  rnd : ℚ → ℚ

/-- `s` is `r` or a region around it. -/
def Around (T : RegionTree α ι) : ι → ι → Prop := ReflTransGen fun a b => T.parent a = some b

/-- The variation of `r`: the growth to the largest region around it at most `delta` levels above, relative to its size; -1 if `delta` is
not positive. -/
def Variation (T : RegionTree α ι) (C : Criteria) (r : ι) (v : ℚ) : Prop :=
  (0 < C.delta → ∃ s, Widest T (T.gray r + C.delta) r s ∧
    v = C.rnd (C.rnd (((T.size s : Int) - (T.size r : Int) : Int) : ℚ) / C.rnd (T.size r : ℚ))) ∧ (C.delta ≤ 0 → v = -1)

/-- The variation of `q` is smaller than that of `r` by more than the threshold. -/
def Beats (T : RegionTree α ι) (C : Criteria) (q r : ι) : Prop := ∃ v w, Variation T C r v ∧ Variation T C q w ∧ C.rnd (w - v) < -C.nms

/-- `r` is beaten by the region one level above it or by one directly inside it, one level below. -/
def Beaten (T : RegionTree α ι) (C : Criteria) (r : ι) : Prop :=
  (∃ c, T.isReg c ∧ T.parent c = some r ∧ T.gray r = T.gray c + 1 ∧ Beats T C c r) ∨
  (∃ p, T.parent r = some p ∧ T.gray p = T.gray r + 1 ∧ Beats T C p r)

/-- The region satisfies the conditions that concern it alone. -/
structure Fits (T : RegionTree α ι) (C : Criteria) (r : ι) : Prop where
  reg : T.isReg r
  nms : 0 ≤ C.nms → ¬ Beaten T C r
  stable : ∀ v, Variation T C r v → v < C.stable
  lo : C.lo ≤ C.rnd (T.size r : ℚ)
  hi : C.rnd (T.size r : ℚ) ≤ C.hi

/-- `q` is the nearest region around `r` that is in `K`, or the region of all pixels if there is none. -/
structure Nearest (T : RegionTree α ι) (K : ι → Prop) (r q : ι) : Prop where
  around : ∃ p, T.parent r = some p ∧ Around T p q
  found : K q ∨ T.parent q = none
  first : ∀ p a, T.parent r = some p → Around T p a → Around T a q → a ≠ q → ¬ K a

/-- `r` is not much smaller than `q`. -/
def TooSimilar (T : RegionTree α ι) (C : Criteria) (r q : ι) : Prop :=
  C.rnd (C.rnd (((T.size q : Int) - (T.size r : Int) : Int) : ℚ) / C.rnd (T.size q : ℚ)) < C.dup

/-- `K` are the regions that fit and, if duplicates are removed (`0 < dup < 1`), are not too similar to the nearest region of `K` around
them – or to the region of all pixels. -/
def IsReport (T : RegionTree α ι) (C : Criteria) (K : ι → Prop) : Prop :=
  ∀ r, K r ↔ Fits T C r ∧ (0 < C.dup → C.dup < 1 → ∀ q, Nearest T K r q → ¬ TooSimilar T C r q)

end Verif.Spec
