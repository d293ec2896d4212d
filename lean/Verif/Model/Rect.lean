/-!
# Rectangles

`basicmath/include/mt_rect_t.h` with integer coordinates; overflow is not considered.
-/

namespace Verif.Rectangle

/-- `mt_rect_t`, mt_rect_t.h 533–536: left, top, width and height. -/
structure Rect where
  left : Int
  top : Int
  width : Int
  height : Int
deriving DecidableEq

/-- `mt_rect_t::right`, mt_rect_t.h 124–126. -/
def Rect.right (r : Rect) : Int := r.left + r.width - 1

/-- `mt_rect_t::bottom`, mt_rect_t.h 128–130. -/
def Rect.bottom (r : Rect) : Int := r.top + r.height - 1

/-- `mt_rect_t::empty`, mt_rect_t.h 320–322. -/
def Rect.empty (r : Rect) : Bool := decide (0 = r.width) && decide (0 = r.height)

/-- `mt_rect_t::adjust_by_append_point`, mt_rect_t.h 324–349. -/
def Rect.appendPoint (r : Rect) (p : Int × Int) : Rect :=
  if r.empty then ⟨p.1, p.2, 1, 1⟩
  else
    let rt := if p.1 > r.right then p.1 else r.right
    let left := if p.1 > r.right then r.left else if p.1 < r.left then p.1 else r.left
    let b := if p.2 > r.bottom then p.2 else r.bottom
    let top := if p.2 > r.bottom then r.top else if p.2 < r.top then p.2 else r.top
    ⟨left, top, rt - left + 1, b - top + 1⟩

/-- `mt_rect_t::adjust_by_append_rect`, mt_rect_t.h 351–365. -/
def Rect.appendRect (r a : Rect) : Rect :=
  if r.empty then a
  else
    let minX := min r.left a.left
    let minY := min r.top a.top
    let maxX := max r.right a.right
    let maxY := max r.bottom a.bottom
    ⟨minX, minY, maxX - minX + 1, maxY - minY + 1⟩

/-- `mt_rect_t::adjust`, mt_rect_t.h 307–313. -/
def Rect.adjust (r : Rect) (l t rt b : Int) : Rect := ⟨r.left - l, r.top - t, r.width + (l + rt), r.height + (t + b)⟩

/-- `mt_rect_t::expand`, mt_rect_t.h 411–425. -/
def Rect.expand (r : Rect) : Rect :=
  if r.width = r.height then r
  else if r.width < r.height then
    r.adjust ((r.height - r.width).tdiv 2) 0 (r.height - r.width - (r.height - r.width).tdiv 2) 0
  else r.adjust 0 ((r.width - r.height).tdiv 2) 0 (r.width - r.height - (r.width - r.height).tdiv 2)

/-- `mt_rect_t::shrink`, mt_rect_t.h 427–441. -/
def Rect.shrink (r : Rect) : Rect :=
  if r.width = r.height then r
  else if r.width < r.height then
    r.adjust 0 (-(r.height - r.width).tdiv 2) 0 (-(r.height - r.width - (r.height - r.width).tdiv 2))
  else r.adjust (-(r.width - r.height).tdiv 2) 0 (-(r.width - r.height - (r.width - r.height).tdiv 2)) 0

end Verif.Rectangle
