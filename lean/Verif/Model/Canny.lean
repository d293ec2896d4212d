import Mathlib.Logic.Function.Basic
import Mathlib.Algebra.Order.Ring.Int

/-!
# The edge detector `img_canny`

`canny_impl`, /repo/basicimg/src/img_canny.cpp 70–257.  The gradient and its magnitude are what `(i32)value[j]`, `(i32)_x[j]` and
`(i32)_y[j]` give (140, 179, 180), as functions of row and column; their computation (`sobel`, `generate_gradient_mag`) is not modelled.
`map` is an array with `mapstep = cols + 2` entries per row and `rows + 2` rows; a pointer into it is its index.  The three rows of
magnitudes are functions of the index in the row (column + 1).  A write behind the end of `m_stack`, an access outside of `map`, an overflow
of `i32` in the comparison of the directions or a loop that has not ended after the given number of steps is the outcome `none`.
`buffer_size`, `maxsize` and the sizes are below 2³¹.
-/

namespace Verif.Canny

/-- An array after a write. -/
def upd (f : Nat → Nat) (i v : Nat) : Nat → Nat := fun k => if k = i then v else f k

/-- The largest `i32`. -/
def i32max : Nat := 2147483647

/-- The image: gradient and magnitude, and the thresholds. -/
structure Img where
  rows : Nat
  cols : Nat
  mag : Nat → Nat → Int
  gx : Nat → Nat → Int
  gy : Nat → Nat → Int
  low : Int
  high : Int

/-- `mapstep`, 80. -/
def Img.step (I : Img) : Nat := I.cols + 2

/-- Whether the magnitude is a maximum along the gradient, 179–202: `A`, `B`, `C` are the rows above, of and below the pixel; `xs ^ ys` is
negative if the signs differ. -/
def localMax (A B C : Nat → Int) (j : Nat) (xs ys : Int) : Option Bool :=
  let m := B (j + 1)
  let x := xs.natAbs
  let y := ys.natAbs * 32768
  let t := x * 13573
  if y ≤ i32max ∧ t ≤ i32max then
    if y < t then some (decide (B j < m ∧ B (j + 2) ≤ m))
    else if t + x * 65536 ≤ i32max then
      if t + x * 65536 < y then some (decide (A (j + 1) < m ∧ C (j + 1) ≤ m))
      else if decide (xs < 0) ≠ decide (ys < 0) then some (decide (A (j + 2) < m ∧ C j < m))
      else some (decide (A j < m ∧ C (j + 2) < m))
    else none
  else none

/-- What the loop over a row changes: `map`, the stack (its top first) and `prev_flag`. -/
structure Scan where
  map : Nat → Nat
  stack : List Nat
  flag : Bool

/-- One pixel of the row `i` (counted from 1), 170–215; `cap` is the size of `m_stack`. -/
def scanPixel (I : Img) (cap i : Nat) (A B C : Nat → Int) (j : Nat) (s : Scan) : Option Scan :=
  (if I.low < B (j + 1) then localMax A B C j (I.gx (i - 1) j) (I.gy (i - 1) j) else some false).bind fun b =>
  let p := I.step * i + 1 + j
  if b = true then
    if s.flag = false ∧ I.high < B (j + 1) ∧ s.map (p - I.step) ≠ 2 then
      if s.stack.length < cap then some { map := upd s.map p 2, stack := p :: s.stack, flag := true } else none
    else some { s with map := upd s.map p 0 }
  else some { s with map := upd s.map p 1, flag := false }

/-- `k` pixels from `j` on, 170–216. -/
def scanLoop (I : Img) (cap i : Nat) (A B C : Nat → Int) : Nat → Nat → Scan → Option Scan
  | 0, _, s => some s
  | k + 1, j, s => (scanPixel I cap i A B C j s).bind (scanLoop I cap i A B C k (j + 1))

/-- The state of the loop over the rows: the ring `mag_buf`, `map`, the stack and `maxsize`. -/
structure St where
  a : Nat → Int
  b : Nat → Int
  c : Nat → Int
  map : Nat → Nat
  stack : List Nat
  cap : Nat

/-- The row of magnitudes, 132–145. -/
def fill (I : Img) (i : Nat) : Nat → Int := fun k => if i < I.rows ∧ 1 ≤ k ∧ k ≤ I.cols then I.mag i (k - 1) else 0

/-- `maxsize` after the test for `n` more entries, 162–168 and 228–235 (`m_stack` is resized to it). -/
def grow (len n cap : Nat) : Nat := if cap < len + n then cap * 3 / 2 else cap

/-- One step of the loop over the rows, 131–222; 150 is the `continue`. -/
def row (I : Img) (i : Nat) (s : St) : Option St :=
  if i = 0 then some { s with b := fill I 0 }
  else
    let C := fill I i
    let map := upd (upd s.map (I.step * i) 1) (I.step * i + 1 + I.cols) 1
    let cap := grow s.stack.length I.cols s.cap
    (scanLoop I cap i s.a s.b C I.cols 0 { map := map, stack := s.stack, flag := false }).map fun r =>
    { a := s.b, b := C, c := s.a, map := r.map, stack := r.stack, cap := cap }

/-- `k` rows from `i` on. -/
def rowLoop (I : Img) : Nat → Nat → St → Option St
  | 0, _, s => some s
  | k + 1, i, s => (row I i s).bind (rowLoop I k (i + 1))

/-- `if (!m[d]) CANNY_PUSH(m + d)`, 239–246; the macro is in 124. -/
def pushIf (size cap : Nat) (st : (Nat → Nat) × List Nat) (p : Nat) : Option ((Nat → Nat) × List Nat) :=
  if p < size then
    if st.1 p = 0 then if st.2.length < cap then some (upd st.1 p 2, p :: st.2) else none
    else some st
  else none

/-- The pixels around a pixel, 239–246. -/
def around (step p : Nat) : List Nat :=
  [p - 1, p + 1, p - step - 1, p - step, p - step + 1, p + step - 1, p + step, p + step + 1]

/-- All of them. -/
def pushAll (size cap : Nat) : List Nat → (Nat → Nat) × List Nat → Option ((Nat → Nat) × List Nat)
  | [], st => some st
  | p :: l, st => (pushIf size cap st p).bind (pushAll size cap l)

/-- The tracking of the edges, 225–247. -/
def track (size step : Nat) : Nat → Nat → (Nat → Nat) × List Nat → Option (Nat → Nat)
  | 0, _, _ => none
  | fuel + 1, cap, st =>
    match st.2 with
    | [] => some st.1
    | p :: rest =>
      let cap := grow (p :: rest).length 8 cap
      (pushAll size cap (around step p) (st.1, rest)).bind (track size step fuel cap)

/-- `maxsize` at the start, 100; `m_stack` has this size whatever it had before (102–107). -/
def cap0 (I : Img) : Nat := max 1024 (I.cols * I.rows / 10)

/-- The borders above and below, 97–98. -/
def borders (I : Img) (junk : Nat → Nat) : Nat → Nat :=
  fun k => if k < I.step then 1 else if I.step * (I.rows + 1) ≤ k ∧ k < I.step * (I.rows + 2) then 1 else junk k

/-- `canny_impl`, 70–257: the value of the edge image in a row and a column; `b`, `c` and `junk` are what `m_buffer` contains. -/
def canny (I : Img) (b c : Nat → Int) (junk : Nat → Nat) : Option (Nat → Nat → Nat) :=
  (rowLoop I (I.rows + 1) 0 { a := fun _ => 0, b := b, c := c, map := borders I junk, stack := [], cap := cap0 I }).bind fun s =>
  (track (I.step * (I.rows + 2)) I.step (I.step * (I.rows + 2) + 1) s.cap (s.map, s.stack)).map fun map =>
  fun i j => (256 - map (I.step * (i + 1) + 1 + j) / 2) % 256

end Verif.Canny
