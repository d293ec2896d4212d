import Mathlib.Algebra.Order.Field.Rat

/-!
# The windows of the edge detector with automatic thresholds

The first half of `edge_detection` of `img_auto_threshold_canny`, /repo/basicimg/src/img_auto_threshold_canny.cpp 19–159: the integral images of
the number and of the magnitude of the edge pixels, and the mean magnitude and the number of dense windows of each cell.  Rational numbers
stand for `f32` and integers for `i32` (no rounding, no overflow); an access outside of an image is the outcome `none`.
-/

namespace Verif.AutoWindow

/-- First row of an integral image, 28–41. -/
def firstRow {R : Type} [Add R] (g : Nat → Nat → R) : Nat → R
  | 0 => g 0 0
  | c + 1 => firstRow g c + g 0 (c + 1)

/-- A further row from the row before, 43–63. -/
def nextRow {R : Type} [Add R] [Sub R] (g : Nat → Nat → R) (r : Nat) (prev : Nat → R) : Nat → R
  | 0 => prev 0 + g r 0
  | c + 1 => nextRow g r prev c + prev (c + 1) - prev c + g r (c + 1)

/-- An integral image by row and column, 28–63.  `g` is 0 at a pixel that is no edge pixel. -/
def integral {R : Type} [Add R] [Sub R] (g : Nat → Nat → R) : Nat → Nat → R
  | 0 => firstRow g
  | r + 1 => nextRow g (r + 1) (integral g r)

/-- The image, the edges found with the lowest threshold, the magnitudes, and the size of the windows. -/
structure Cfg where
  rows : Nat
  cols : Nat
  edge : Nat → Nat → Bool
  mag : Nat → Nat → Rat
  /-- `m_auto_threshold_window_size` -/
  size : Nat
  /-- `window_destiny_flag_number_threshold`, 65 -/
  dense : Int

/-- What is added to the number image at a pixel. -/
def Cfg.one (c : Cfg) (i j : Nat) : Int := if c.edge i j = true then 1 else 0

/-- What is added to the sum image at a pixel. -/
def Cfg.val (c : Cfg) (i j : Nat) : Rat := if c.edge i j = true then c.mag i j else 0

/-- `window_step`, 69. -/
def Cfg.step (c : Cfg) : Nat := c.size / 4

/-- `image_window_row_number`, 72. -/
def Cfg.nr (c : Cfg) : Nat := c.rows / c.step + if c.rows % c.step > c.size / 2 then 1 else 0

/-- `image_window_col_number`, 73; the remainder is that of `rows`. -/
def Cfg.nc (c : Cfg) : Nat := c.cols / c.step + if c.rows % c.step > c.size / 2 then 1 else 0

/-- `image.at`. -/
def look {R : Type} (c : Cfg) (I : Nat → Nat → R) (r k : Int) : Option R :=
  if 0 ≤ r ∧ r < c.rows ∧ 0 ≤ k ∧ k < c.cols then some (I r.toNat k.toNat) else none

/-- `INTEGRAL_ELEMENT_VALUE`, 80–81. -/
def element {R : Type} [Zero R] (c : Cfg) (I : Nat → Nat → R) (r k : Int) : Option R := if -1 = r ∨ -1 = k then some 0 else look c I r k

/-- `INTEGRAL_VALUE`, 84–85. -/
def value {R : Type} [Add R] [Sub R] [Zero R] (c : Cfg) (I : Nat → Nat → R) (startRow startCol stopRow stopCol : Int) : Option R :=
  (look c I stopRow stopCol).bind fun a => (element c I startRow stopCol).bind fun b => (element c I stopRow startCol).bind fun d =>
  (element c I startRow startCol).bind fun e => some (a - b - d + e)

/-- A cell: `gradient_mean`, `gradient_count`, `destiny_flags` (an `u8`). -/
structure Cell where
  mean : Rat
  count : Int
  flags : Nat

/-- One window, 109–154: `rowStep`, `colStep` are its numbers.  The loops 140–150 visit each cell of the window once. -/
def window (c : Cfg) (s : Nat → Nat → Cell) (v : Nat × Nat) : Option (Nat → Nat → Cell) :=
  let row : Int := (c.step * v.1 : Nat)
  let col : Int := (c.step * v.2 : Nat)
  let stopRow : Int := if (v.1 : Int) = (c.nr : Int) - 4 then (c.rows : Int) - 1 else row + c.size - 1
  let stopCol : Int := if (v.2 : Int) = (c.nc : Int) - 4 then (c.cols : Int) - 1 else col + c.size - 1
  (value c (integral c.one) (row - 1) (col - 1) stopRow stopCol).bind fun count =>
  if 0 < count then
    (value c (integral c.val) (row - 1) (col - 1) stopRow stopCol).bind fun sum =>
    let realRow : Int := min (row / c.step) ((c.nr : Int) - 1)
    let realCol : Int := min (col / c.step) ((c.nc : Int) - 1)
    if 0 ≤ realRow ∧ realRow + 4 ≤ c.nr ∧ 0 ≤ realCol ∧ realCol + 4 ≤ c.nc then
      some fun i j =>
        if realRow ≤ i ∧ (i : Int) < realRow + 4 ∧ realCol ≤ j ∧ (j : Int) < realCol + 4 then
          { mean := ((s i j).mean * (s i j).count + sum) / ((s i j).count + count : Int)
            count := (s i j).count + count
            flags := if c.dense ≤ count then ((s i j).flags + 1) % 256 else (s i j).flags }
        else s i j
    else none
  else some s

/-- The windows in the order of the loops 108–159. -/
def windows (c : Cfg) : List (Nat × Nat) := (List.range (c.nr - 3)).flatMap fun k => (List.range (c.nc - 3)).map fun l => (k, l)

/-- A list of windows. -/
def runWindows (c : Cfg) : List (Nat × Nat) → (Nat → Nat → Cell) → Option (Nat → Nat → Cell)
  | [], s => some s
  | v :: l, s => (window c s v).bind (runWindows c l)

/-- The cells after all windows, 89–159.  A window size below 4 divides by zero in 72. -/
def cells (c : Cfg) : Option (Nat → Nat → Cell) := if c.step = 0 then none else runWindows c (windows c) fun _ _ => ⟨0, 0, 0⟩

/-- The cell of a pixel, 168, 171 (`REAL_ROW`, `REAL_COL`, 75–78), with the range check of `gradient_mean.at`. -/
def cellOf (c : Cfg) (s : Nat → Nat → Cell) (row col : Nat) : Option Cell :=
  if c.step = 0 then none
  else
    let i : Int := min (row / c.step : Nat) ((c.nr : Int) - 1)
    let j : Int := min (col / c.step : Nat) ((c.nc : Int) - 1)
    if 0 ≤ i ∧ i < c.nr ∧ 0 ≤ j ∧ j < c.nc then some (s i.toNat j.toNat) else none

end Verif.AutoWindow
