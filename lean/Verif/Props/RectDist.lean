import Verif.Model.RectDist
import Verif.Spec.RectDist
import Mathlib.Tactic.Linarith
import Mathlib.Tactic.NormNum
import Mathlib.Tactic.Ring

/-!
# C178–C180: distance and normal form of rectangles, angles
-/

namespace Verif.Props

open Verif.Rectangle Verif.Spec

/-- **C178.**  `horizontal_dist` is the smallest distance of a column of the one rectangle and a column of the other, and does not depend on the order. -/
theorem C178_horizontal (a b : Rect) (ha : 0 < a.width) (hb : 0 < b.width) :
    SmallestDistance a.left a.right b.left b.right (a.horizontalDist b) ∧ a.horizontalDist b = b.horizontalDist a := by
  obtain ⟨al, _, aw, _⟩ := a
  obtain ⟨bl, _, bw, _⟩ := b
  simp only at ha hb
  refine ⟨⟨?_, ?_⟩, ?_⟩
  · simp only [Rect.horizontalDist, Rect.right]
    by_cases h : al < bl
    · simp only [h, if_true]
      by_cases hd : bl - (al + aw - 1) < 0
      · exact ⟨bl, bl, by omega, by omega, by omega, by omega, by rw [if_pos hd]; omega⟩
      · exact ⟨al + aw - 1, bl, by omega, by omega, by omega, by omega, by rw [if_neg hd]; omega⟩
    · simp only [h, if_false]
      by_cases hd : al - (bl + bw - 1) < 0
      · exact ⟨al, al, by omega, by omega, by omega, by omega, by rw [if_pos hd]; omega⟩
      · exact ⟨al, bl + bw - 1, by omega, by omega, by omega, by omega, by rw [if_neg hd]; omega⟩
  · intro x y h1 h2 h3 h4
    simp only [Rect.right] at h1 h2 h3 h4
    simp only [Rect.horizontalDist, Rect.right]
    by_cases h : al < bl
    · simp only [h, if_true]; split <;> omega
    · simp only [h, if_false]; split <;> omega
  · simp only [Rect.horizontalDist, Rect.right]
    rcases Int.lt_trichotomy al bl with h | h | h
    · simp only [h, if_true, if_neg (by omega : ¬ bl < al)]
    · subst h; simp only [lt_irrefl, if_false]
      split <;> split <;> omega
    · simp only [h, if_true, if_neg (by omega : ¬ al < bl)]

example : (⟨0, 0, 3, 1⟩ : Rect).horizontalDist ⟨7, 0, 2, 1⟩ = 5 ∧ (⟨0, 0, 9, 1⟩ : Rect).horizontalDist ⟨7, 0, 2, 1⟩ = 0 := by decide

/-- What is expected of the normal form: sizes that are not negative, the same columns and rows at the sides, and a side without extent keeps that. -/
def NormalForm (a b : Rect) : Prop :=
  0 ≤ b.width ∧ 0 ≤ b.height ∧ (a.width = 0 → b.width = 0) ∧ (a.height = 0 → b.height = 0) ∧
  (a.width < 0 → b.left = a.right ∧ b.right = a.left) ∧ (0 < a.width → b.left = a.left ∧ b.right = a.right) ∧
  (a.height < 0 → b.top = a.bottom ∧ b.bottom = a.top) ∧ (0 < a.height → b.top = a.top ∧ b.bottom = a.bottom)

/-- **C179, part.**  `normlized` gives the normal form, which it does not change again, if no size is zero or no size is negative. -/
theorem C179_normalized_partial (a : Rect) (h : a.width ≠ 0 ∧ a.height ≠ 0 ∨ 0 ≤ a.width ∧ 0 ≤ a.height) :
    NormalForm a a.normalized ∧ a.normalized.normalized = a.normalized := by
  obtain ⟨l, t, w, ht⟩ := a
  simp only at h
  have key : NormalForm ⟨l, t, w, ht⟩ (Rect.normalized ⟨l, t, w, ht⟩) := by
    by_cases hn : w < 0 ∨ ht < 0
    · simp only [Rect.normalized, if_pos hn, setRect, NormalForm, Rect.right, Rect.bottom]
      omega
    · simp only [Rect.normalized, if_neg hn, NormalForm]
      exact ⟨by omega, by omega, fun h => h, fun h => h, fun h => by omega, fun _ => ⟨trivial, trivial⟩, fun h => by omega, fun _ => ⟨trivial, trivial⟩⟩
  refine ⟨key, ?_⟩
  conv_lhs => rw [Rect.normalized]
  rw [if_neg]
  have h1 := key.1
  have h2 := key.2.1
  omega

example : (⟨5, 0, -3, 2⟩ : Rect).normalized = ⟨1, 0, 5, 2⟩ := by decide

/-- **C179 is false.**  Every rectangle with one negative and one zero size gets two rows (columns) where it had none. -/
theorem not_C179_normalized (a : Rect) (hw : a.width < 0) (hh : a.height = 0) : a.normalized.height = 2 ∧ ¬ NormalForm a a.normalized := by
  obtain ⟨l, t, w, ht⟩ := a
  simp only at hw hh
  subst hh
  have : (Rect.normalized ⟨l, t, w, 0⟩).height = 2 := by
    simp only [Rect.normalized, if_pos (Or.inl hw : w < 0 ∨ (0 : Int) < 0), setRect, Rect.bottom]
    omega
  exact ⟨this, fun h => by have := h.2.2.2.1 rfl; omega⟩

example : (⟨5, 0, -3, 0⟩ : Rect).normalized = ⟨1, -1, 5, 2⟩ := by decide

/-- **C180, part.**  `normlize_angle` brings the angles from -360 up to but without 720, except 360, into one turn. -/
theorem C180_angle_partial (a : ℚ) (h1 : -360 ≤ a) (h2 : a < 720) (h3 : a ≠ 360) : InOneTurn a (normalizeAngle a) := by
  unfold normalizeAngle
  split
  · exact ⟨by linarith, by linarith, 1, by push_cast; ring⟩
  · rename_i h
    split
    · exact ⟨by linarith, by linarith, -1, by push_cast; ring⟩
    · exact ⟨by linarith, lt_of_le_of_ne (by linarith) h3, 0, by push_cast; ring⟩

example : normalizeAngle (-90) = 270 ∧ normalizeAngle 450 = 90 := by decide +kernel

/-- **C180 is false** for exactly the other angles: 360 is kept though it is 0, and angles of further turns stay outside. -/
theorem not_C180_angle (a : ℚ) (h : a < -360 ∨ 720 ≤ a ∨ a = 360) : ¬ InOneTurn a (normalizeAngle a) := by
  rintro ⟨h1, h2, _⟩
  unfold normalizeAngle at h1 h2
  rcases h with h | h | h
  · rw [if_neg (by linarith), if_pos (by linarith)] at h1; linarith
  · rw [if_pos (by linarith)] at h2; linarith
  · subst h; norm_num at h2

example : normalizeAngle 1000 = 640 := by decide +kernel

end Verif.Props
