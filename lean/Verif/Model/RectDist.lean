import Verif.Model.Rect
import Mathlib.Algebra.Order.Ring.Rat

/-!
# Distance and normal form of rectangles, angles

/repo/basicmath/include/mt_rect_t.h with integer coordinates without overflow, /repo/basicmath/include/mt_angle_helper.h with rational angles.
-/

namespace Verif.Rectangle

/-- `mt_rect_t::horizontal_dist`, mt_rect_t.h 443–462. -/
def Rect.horizontalDist (a b : Rect) : Int :=
  let l := if a.left < b.left then a else b
  let r := if a.left < b.left then b else a
  let distance := r.left - l.right
  if distance < 0 then 0 else distance

/-- `mt_rect_t::set_rect` with two points, mt_rect_t.h 96–101. -/
def setRect (x1 y1 x2 y2 : Int) : Rect := ⟨x1, y1, x2 - x1 + 1, y2 - y1 + 1⟩

/-- `mt_rect_t::normlized`, mt_rect_t.h 160–164. -/
def Rect.normalized (a : Rect) : Rect :=
  if a.width < 0 ∨ a.height < 0 then
    setRect (min a.left a.right) (min a.top a.bottom) (max a.left a.right) (max a.top a.bottom)
  else a

/-- `mt_angle_helper::normlize_angle`, mt_angle_helper.h 10–19. -/
def normalizeAngle (a : ℚ) : ℚ := if a > 360 then a - 360 else if a < 0 then a + 360 else a

end Verif.Rectangle
