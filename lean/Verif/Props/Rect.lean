import Verif.Model.Rect

/-!
# Properties C35, C56, C57: rectangles
-/

namespace Verif.Props

open Verif.Rectangle

/-- A point lies in the rectangle with the given corner and sides. -/
def Covers (r : Rect) (x y : Int) : Prop := r.left ≤ x ∧ x < r.left + r.width ∧ r.top ≤ y ∧ y < r.top + r.height

/-- `r` is the smallest rectangle that covers the points of `P`: it covers them, and each of its four sides has one. -/
structure SmallestFor (P : Int → Int → Prop) (r : Rect) : Prop where
  covers : ∀ x y, P x y → Covers r x y
  left : ∃ y, P r.left y
  top : ∃ x, P x r.top
  right : ∃ y, P (r.left + r.width - 1) y
  bottom : ∃ x, P x (r.top + r.height - 1)

/-- A smallest rectangle lies in every rectangle that covers the points. -/
theorem SmallestFor.least {P : Int → Int → Prop} {r q : Rect} (h : SmallestFor P r) (hq : ∀ x y, P x y → Covers q x y)
    (x y : Int) (hc : Covers r x y) : Covers q x y := by
  obtain ⟨y1, h1⟩ := h.left
  obtain ⟨x2, h2⟩ := h.top
  obtain ⟨y3, h3⟩ := h.right
  obtain ⟨x4, h4⟩ := h.bottom
  have a1 := hq _ _ h1
  have a2 := hq _ _ h2
  have a3 := hq _ _ h3
  have a4 := hq _ _ h4
  unfold Covers at *
  omega

theorem SmallestFor.unique {P : Int → Int → Prop} {r q : Rect} (h : SmallestFor P r) (h' : SmallestFor P q) : r = q := by
  have key : ∀ {r q : Rect}, SmallestFor P r → SmallestFor P q → q.left ≤ r.left ∧ q.top ≤ r.top ∧
      r.left + r.width ≤ q.left + q.width ∧ r.top + r.height ≤ q.top + q.height := by
    intro r q h h'
    obtain ⟨y1, h1⟩ := h.left
    obtain ⟨x2, h2⟩ := h.top
    obtain ⟨y3, h3⟩ := h.right
    obtain ⟨x4, h4⟩ := h.bottom
    have a1 := h'.covers _ _ h1
    have a2 := h'.covers _ _ h2
    have a3 := h'.covers _ _ h3
    have a4 := h'.covers _ _ h4
    unfold Covers at *
    omega
  have k1 := key h h'
  have k2 := key h' h
  obtain ⟨a, b, c, d⟩ := r
  obtain ⟨a', b', c', d'⟩ := q
  simp only [Rect.mk.injEq]
  dsimp only at k1 k2
  omega

theorem SmallestFor.sides {P : Int → Int → Prop} {r : Rect} (h : SmallestFor P r) : 1 ≤ r.width ∧ 1 ≤ r.height := by
  obtain ⟨y1, h1⟩ := h.left
  have a1 := h.covers _ _ h1
  unfold Covers at a1
  omega

theorem SmallestFor.not_empty {P : Int → Int → Prop} {r : Rect} (h : SmallestFor P r) : r.empty = false := by
  have := h.sides
  simp [Rect.empty]
  omega

theorem appendPoint_eq {r : Rect} (hw : 1 ≤ r.width) (hh : 1 ≤ r.height) (p : Int × Int) :
    r.appendPoint p = r.appendRect ⟨p.1, p.2, 1, 1⟩ := by
  have he : r.empty = false := by
    simp [Rect.empty]
    omega
  have h1 : r.left ≤ r.right := by unfold Rect.right; omega
  have h2 : r.top ≤ r.bottom := by unfold Rect.bottom; omega
  have e1 : (⟨p.1, p.2, 1, 1⟩ : Rect).right = p.1 := by simp only [Rect.right]; omega
  have e2 : (⟨p.1, p.2, 1, 1⟩ : Rect).bottom = p.2 := by simp only [Rect.bottom]; omega
  rw [Rect.appendPoint, Rect.appendRect, he, e1, e2]
  generalize r.right = R at *
  generalize r.bottom = B at *
  simp only [Bool.false_eq_true, if_false, Rect.mk.injEq]
  refine ⟨?_, ?_, ?_, ?_⟩
  · split <;> (try split) <;> omega
  · split <;> (try split) <;> omega
  · split <;> (try split) <;> omega
  · split <;> (try split) <;> omega

theorem appendRect_ok {P : Int → Int → Prop} {r a : Rect} (h : SmallestFor P r) (hw : 1 ≤ a.width) (hh : 1 ≤ a.height) :
    SmallestFor (fun x y => P x y ∨ Covers a x y) (r.appendRect a) := by
  have hs := h.sides
  obtain ⟨y1, h1⟩ := h.left
  obtain ⟨x2, h2⟩ := h.top
  obtain ⟨y3, h3⟩ := h.right
  obtain ⟨x4, h4⟩ := h.bottom
  rw [Rect.appendRect, h.not_empty]
  simp only [Bool.false_eq_true, if_false, Rect.right, Rect.bottom]
  have e : ∀ a b : Int, b + (a - b + 1) - 1 = a := by intro a b; omega
  constructor
  · rintro x y (hp | hp)
    · have := h.covers x y hp
      unfold Covers at *
      dsimp only
      omega
    · unfold Covers at *
      dsimp only
      omega
  · dsimp only
    by_cases c : r.left ≤ a.left
    · rw [Int.min_eq_left c]; exact ⟨y1, .inl h1⟩
    · rw [Int.min_eq_right (by omega)]; exact ⟨a.top, .inr (by unfold Covers; omega)⟩
  · dsimp only
    by_cases c : r.top ≤ a.top
    · rw [Int.min_eq_left c]; exact ⟨x2, .inl h2⟩
    · rw [Int.min_eq_right (by omega)]; exact ⟨a.left, .inr (by unfold Covers; omega)⟩
  · dsimp only
    rw [e]
    by_cases c : a.left + a.width - 1 ≤ r.left + r.width - 1
    · rw [Int.max_eq_left c]; exact ⟨y3, .inl h3⟩
    · rw [Int.max_eq_right (by omega)]; exact ⟨a.top, .inr (by unfold Covers; omega)⟩
  · dsimp only
    rw [e]
    by_cases c : a.top + a.height - 1 ≤ r.top + r.height - 1
    · rw [Int.max_eq_left c]; exact ⟨x4, .inl h4⟩
    · rw [Int.max_eq_right (by omega)]; exact ⟨a.left, .inr (by unfold Covers; omega)⟩

theorem appendPoint_ok {P : Int → Int → Prop} {r : Rect} (h : SmallestFor P r) (p : Int × Int) :
    SmallestFor (fun x y => P x y ∨ (x = p.1 ∧ y = p.2)) (r.appendPoint p) := by
  rw [appendPoint_eq h.sides.1 h.sides.2]
  have := appendRect_ok h (a := ⟨p.1, p.2, 1, 1⟩) (Int.le_refl 1) (Int.le_refl 1)
  have e : (fun x y => P x y ∨ (x = p.1 ∧ y = p.2)) = fun x y => P x y ∨ Covers ⟨p.1, p.2, 1, 1⟩ x y := by
    funext x y
    have : (x = p.1 ∧ y = p.2) ↔ Covers ⟨p.1, p.2, 1, 1⟩ x y := by
      unfold Covers
      dsimp only
      omega
    rw [this]
  rw [e]
  exact this

/-- What is appended: a point or a rectangle. -/
inductive Item where
  | point (p : Int × Int)
  | rect (r : Rect)

/-- Rectangles have positive sides. -/
def Item.Proper : Item → Prop
  | .point _ => True
  | .rect r => 1 ≤ r.width ∧ 1 ≤ r.height

/-- The points of an item. -/
def Item.Has : Item → Int → Int → Prop
  | .point p, x, y => x = p.1 ∧ y = p.2
  | .rect r, x, y => Covers r x y

/-- Appending an item. -/
def appendItem (r : Rect) : Item → Rect
  | .point p => r.appendPoint p
  | .rect a => r.appendRect a

theorem appendAll_ok : ∀ (l : List Item) {P : Int → Int → Prop} {r : Rect}, (∀ i ∈ l, i.Proper) → SmallestFor P r →
    SmallestFor (fun x y => P x y ∨ ∃ i ∈ l, i.Has x y) (l.foldl appendItem r)
  | [], P, r, _, h => by
    have : (fun x y => P x y ∨ ∃ i ∈ ([] : List Item), i.Has x y) = P := by
      funext x y; simp
    rw [this]; exact h
  | i :: l, P, r, hp, h => by
    have h1 : SmallestFor (fun x y => P x y ∨ i.Has x y) (appendItem r i) := by
      cases i with
      | point p => exact appendPoint_ok h p
      | rect a =>
        have hq : 1 ≤ a.width ∧ 1 ≤ a.height := hp (.rect a) (by simp)
        exact appendRect_ok h hq.1 hq.2
    have h2 := appendAll_ok l (fun j hj => hp j (List.mem_cons_of_mem _ hj)) h1
    have e : (fun x y => P x y ∨ ∃ j ∈ i :: l, j.Has x y) = fun x y => (P x y ∨ i.Has x y) ∨ ∃ j ∈ l, j.Has x y := by
      funext x y
      simp only [List.mem_cons, exists_eq_or_imp, or_assoc]
    rw [e]
    exact h2

theorem firstItem_ok {r : Rect} (he : r.empty = true) {i : Item} (hp : i.Proper) : SmallestFor i.Has (appendItem r i) := by
  cases i with
  | point p =>
    rw [appendItem, Rect.appendPoint, if_pos he]
    refine ⟨?_, ⟨p.2, rfl, rfl⟩, ⟨p.1, rfl, rfl⟩, ⟨p.2, ?_, rfl⟩, ⟨p.1, rfl, ?_⟩⟩
    · rintro x y ⟨rfl, rfl⟩; unfold Covers; dsimp only; omega
    · dsimp only; omega
    · dsimp only; omega
  | rect a =>
    obtain ⟨h1, h2⟩ := hp
    rw [appendItem, Rect.appendRect, if_pos he]
    refine ⟨fun x y h => h, ⟨a.top, ?_⟩, ⟨a.left, ?_⟩, ⟨a.top, ?_⟩, ⟨a.left, ?_⟩⟩ <;> simp only [Item.Has, Covers] <;> omega

/-- **C35** Appending points and rectangles to an empty rectangle gives the smallest rectangle that covers all of
them. -/
theorem C35_smallest {r : Rect} (he : r.empty = true) {i : Item} {l : List Item} (hp : ∀ j ∈ i :: l, j.Proper) :
    SmallestFor (fun x y => ∃ j ∈ i :: l, j.Has x y) ((i :: l).foldl appendItem r) := by
  have := appendAll_ok l (fun j hj => hp j (List.mem_cons_of_mem _ hj)) (firstItem_ok he (hp i (by simp)))
  have e : (fun x y => ∃ j ∈ i :: l, j.Has x y) = fun x y => i.Has x y ∨ ∃ j ∈ l, j.Has x y := by
    funext x y
    simp only [List.mem_cons, exists_eq_or_imp]
  rw [e]
  exact this

/-- **C35** The order does not matter. -/
theorem C35_any_order {r r' : Rect} (he : r.empty = true) (he' : r'.empty = true) {l l' : List Item} (hl : l ≠ [])
    (hp : ∀ j ∈ l, j.Proper) (hperm : ∀ j, j ∈ l ↔ j ∈ l') : l.foldl appendItem r = l'.foldl appendItem r' := by
  cases l with
  | nil => exact absurd rfl hl
  | cons i l =>
    cases l' with
    | nil => exact absurd ((hperm i).1 (by simp)) (by simp)
    | cons i' l' =>
      have h1 := C35_smallest he hp
      have h2 := C35_smallest he' (fun j hj => hp j ((hperm j).2 hj))
      have e : (fun x y => ∃ j ∈ i :: l, j.Has x y) = fun x y => ∃ j ∈ i' :: l', j.Has x y := by
        funext x y
        refine propext ⟨?_, ?_⟩
        · rintro ⟨j, hj, h⟩; exact ⟨j, (hperm j).1 hj, h⟩
        · rintro ⟨j, hj, h⟩; exact ⟨j, (hperm j).2 hj, h⟩
      rw [e] at h1
      exact h1.unique h2

example : [Item.point (5, 5), .rect ⟨-1, 2, 3, 1⟩, .point (0, 9)].foldl appendItem ⟨0, 0, 0, 0⟩ = ⟨-1, 2, 7, 8⟩ := by decide

example : ∀ j ∈ [Item.point (5, 5), .rect ⟨-1, 2, 3, 1⟩], j.Proper := by simp [Item.Proper]

/-- **C56** (violated) Appending the empty rectangle to the pixel (5, 5) gives a rectangle of 6 x 6 pixels. -/
theorem C56_false : ∃ r a : Rect, r.empty = false ∧ a.empty = true ∧ r.appendRect a = ⟨0, 0, 6, 6⟩ ∧ r = ⟨5, 5, 1, 1⟩ :=
  ⟨⟨5, 5, 1, 1⟩, ⟨0, 0, 0, 0⟩, rfl, rfl, rfl, rfl⟩

/-- **C56** (what holds) Appending an empty rectangle whose corner lies in the rectangle, or to an empty rectangle,
covers the same points. -/
theorem C56_inside_partial {r a : Rect} (ha : a.empty = true) (h : r.empty = true ∨ Covers r a.left a.top) (x y : Int) :
    Covers (r.appendRect a) x y ↔ Covers r x y := by
  simp only [Rect.empty, Bool.and_eq_true, decide_eq_true_eq] at ha h
  unfold Rect.appendRect
  split
  · rename_i he
    simp only [Rect.empty, Bool.and_eq_true, decide_eq_true_eq] at he
    unfold Covers
    omega
  · rename_i he
    simp only [Rect.empty, Bool.and_eq_true, decide_eq_true_eq] at he
    unfold Covers at *
    simp only [Rect.right, Rect.bottom]
    omega

/-- **C57** Expanding gives a square of the longer side that covers the rectangle. -/
theorem C57_expand (r : Rect) :
    r.expand.width = max r.width r.height ∧ r.expand.height = max r.width r.height ∧ ∀ x y, Covers r x y → Covers r.expand x y := by
  unfold Rect.expand
  split
  · exact ⟨by omega, by omega, fun x y h => h⟩
  · split
    · rw [Int.tdiv_eq_ediv_of_nonneg (by omega)]
      unfold Rect.adjust Covers
      refine ⟨by dsimp only; omega, by dsimp only; omega, fun x y h => ?_⟩
      dsimp only
      omega
    · rw [Int.tdiv_eq_ediv_of_nonneg (by omega)]
      unfold Rect.adjust Covers
      refine ⟨by dsimp only; omega, by dsimp only; omega, fun x y h => ?_⟩
      dsimp only
      omega

/-- **C57** Shrinking gives a square of the shorter side inside the rectangle. -/
theorem C57_shrink (r : Rect) :
    r.shrink.width = min r.width r.height ∧ r.shrink.height = min r.width r.height ∧ ∀ x y, Covers r.shrink x y → Covers r x y := by
  unfold Rect.shrink
  split
  · exact ⟨by omega, by omega, fun x y h => h⟩
  · split
    · rw [Int.tdiv_eq_ediv_of_nonneg (by omega)]
      unfold Rect.adjust Covers
      refine ⟨by dsimp only; omega, by dsimp only; omega, fun x y h => ?_⟩
      dsimp only at h
      omega
    · rw [Int.tdiv_eq_ediv_of_nonneg (by omega)]
      unfold Rect.adjust Covers
      refine ⟨by dsimp only; omega, by dsimp only; omega, fun x y h => ?_⟩
      dsimp only at h
      omega

example : (⟨2, 3, 4, 7⟩ : Rect).expand = ⟨1, 3, 7, 7⟩ ∧ (⟨2, 3, 4, 7⟩ : Rect).shrink = ⟨2, 4, 4, 4⟩ := by decide

end Verif.Props
