import Verif.Model.Extract

/-!
# Drawing a region

`image_from_mser` (`basicimg/src/img_mser_helper.cpp` 35–167) without the final `resize` (164–166, OpenCV).  The loops that
visit the points of a record are modelled where the record is (`Extract.points`, `Ms.pointsM`, `V1.readRange`,
`Linear.readShare`); here the list of visited points is given.  Colours are of any type: `mt_mat::set` writes the channels
of the colour (mt_mat.cpp 23–41, 213–255).  Overflow of `int` is not considered.
-/

namespace Verif.Draw

open Verif.Extract (Rect)

variable {κ : Type}

/-- A picture: `size()[0]`, `size()[1]` and the pixel in a row and column. -/
structure Pic (κ : Type) where
  rows : Int
  cols : Int
  px : Int → Int → κ

/-- `img_img::point_in_image` (img_img.h 64–66) for the point `(x, y)`. -/
def pointInImage (p : Pic κ) (x y : Int) : Bool := decide (0 ≤ x ∧ 0 ≤ y ∧ x < p.cols ∧ y < p.rows)

/-- `mt_mat::set(colour, row, column)` (mt_mat.cpp 1962–1985); outside the picture this is undefined behaviour. -/
def setPixel (p : Pic κ) (c : κ) (y x : Int) : Option (Pic κ) :=
  if 0 ≤ y ∧ y < p.rows ∧ 0 ≤ x ∧ x < p.cols then
    some { p with px := fun y' x' => if y' = y ∧ x' = x then c else p.px y' x' }
  else none

/-- `expend_height` (44–47): the division is of a positive number. -/
def expendHeight (R : Rect) : Int := if R.height < R.width then (R.width - R.height) / 2 else 0

/-- `expend_width` (48–50). -/
def expendWidth (R : Rect) : Int :=
  if R.height < R.width then 0 else if R.width < R.height then (R.height - R.width) / 2 else 0

/-- `res.create(...)` and `res.set(background_color)` (52–53). -/
def blank (bg : κ) (R : Rect) : Pic κ :=
  ⟨R.height + expendHeight R * 2, R.width + expendWidth R * 2, fun _ _ => bg⟩

/-- One visited point (58–65, 88–92, 106–110, 134–138, 146–150). -/
def drawPoint (fg : κ) (R : Rect) (p : Pic κ) (pt : Int × Int) : Option (Pic κ) :=
  let x := pt.1 - R.left + expendWidth R
  let y := pt.2 - R.top + expendHeight R
  if pointInImage p x y then setPixel p fg y x else some p

/-- `image_from_mser` (35–162) for a record with rectangle `R` whose visited points are `D`. -/
def imageFromMser (fg bg : κ) (R : Rect) (D : List (Int × Int)) : Option (Pic κ) :=
  D.foldlM (drawPoint fg R) (blank bg R)

/-- `img_img::genarate_chessboard` (img_img.cpp 396–427): the colour after `col` pixels of row `row` are done, together with
`chess_col`; `none` is a division by 0.  The row sets `gray` to 0 or 255 and the inner loop flips it when the chess column
changes. -/
def chessRow (size : Int) (row : Int) : Nat → Option (Int × Nat)
  | 0 => if size = 0 then none else some (0, if (row.tdiv size).tmod 2 = 0 then 0 else 255)
  | c + 1 => (chessRow size row c).bind fun s =>
      let new := (c : Int).tdiv size
      some (new, if new ≠ s.1 then s.2 ^^^ 255 else s.2)

/-- The value written to all channels of the pixel in row `row` and column `col`. -/
def chessPixel (size : Int) (row col : Nat) : Option Nat := (chessRow size row (col + 1)).map (·.2)

end Verif.Draw
