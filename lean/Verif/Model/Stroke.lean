import Mathlib.Algebra.Order.Ring.Int

/-!
# Stroke widths from rays

`median_stroke_width`, `set_ray_width` and `normalize_swt_image` of `img_stroke_width_transform`,
/repo/basicimg/src/img_stroke_width_transform.cpp.  The rays are an input: their search (6–183) computes with `f32`.
-/

namespace Verif.Stroke

/-- `swt_ray`: `m_width` and the pixels from `m_start` to `m_stop`, /repo/basicimg/include/img_stroke_width_transform.h 47–56. -/
abbrev Ray := Int × List (Nat × Nat)

/-- `set_ray_width`, 229–235.  The width is below a value of `i16` when it is stored. -/
def setRay (img : Nat × Nat → Int) (r : Ray) : Nat × Nat → Int :=
  r.2.foldl (fun f p => if r.1 < f p then fun q => if q = p then r.1 else f q else f) img

/-- Insertion into a sorted list. -/
def ins (x : Int) : List Int → List Int
  | [] => [x]
  | y :: l => if x ≤ y then x :: y :: l else y :: ins x l

/-- The sorted values. -/
def sort : List Int → List Int
  | [] => []
  | x :: l => ins x (sort l)

/-- `mt_helper::median_with_changed_order`, /repo/basicmath/include/mt_helper.h 140–150: `nth_element` with the index `(size - 1) / 2` leaves
there the value at that index of the sorted values.  `none` stands for the failed assertion of line 141. -/
def median (l : List Int) : Option Int := (sort l)[(l.length - 1) / 2]?

/-- The medians, 242–255. -/
def medians (img : Nat × Nat → Int) : List Ray → Option (List Ray)
  | [] => some []
  | r :: l => (median (r.2.map img)).bind fun m => (medians img l).map fun t => (m, r.2) :: t

/-- `median_stroke_width`, 237–260, on the image of line 39. -/
def stroke (invalid : Int) (rays : List Ray) : Option (Nat × Nat → Int) :=
  let img := rays.foldl setRay fun _ => invalid
  (medians img rays).map fun t => t.foldl setRay img

/-- The loop 194–204: `maxVal`, `minVal`. -/
def range (invalid : Int) : List Int → Int × Int → Int × Int
  | [], s => s
  | v :: l, s => range invalid l (if v ≠ invalid then (max v s.1, min v s.2) else s)

/-- `normalize_swt_image`, 190–227, on the values of the image.  The quotient of line 219 is one of `f32`: the dividend is below 2^24 and exact,
the quotient at most 255, so that its rounding, at most 2^-17, is less than the distance of a quotient below an integer to that integer, at
least 1/65535; the integer part is that of the exact quotient. -/
def normalize (invalid : Int) (img : List Int) : List Int :=
  let s := range invalid img (0, 32767)
  let d := if s.1 - s.2 < 200 then 200 else s.1 - s.2
  img.map fun v => if v = invalid then 255 else 255 * (v - s.2) / d

end Verif.Stroke
