import Mathlib.Algebra.Order.Ring.Int
import Mathlib.Data.Bool.Basic

/-!
# The edge detector with automatic thresholds

`img_auto_threshold_canny`, /repo/basicimg/src/img_auto_threshold_canny.cpp.  Images are functions of the pixel (column, row); a pixel of an
edge image is set when it is 255.  The magnitudes and the thresholds are only compared, so integers stand for the values of `f32`.  An access
outside of an image or a loop that has not ended after the given number of steps is the outcome `none`.
-/

namespace Verif.AutoCanny

/-- The image: its size, the magnitude of the gradient, and the parameters. -/
structure Cfg where
  w : Nat
  h : Nat
  mag : Nat × Nat → Int
  /-- `m_can_not_be_removed_threshold` -/
  keep : Int
  /-- `m_noise_edge_number_threshold` -/
  noise : Nat
  /-- the automatic high threshold of a pixel, 173–185 -/
  high : Nat × Nat → Int
  /-- `autoHighThreshold * m_low_to_high_ratio`, 210 -/
  low : Nat × Nat → Int

/-- `img_DX_3_9`, `img_DY_3_9` from 1 on, /repo/basicimg/include/img_types.h 7–8. -/
def offsets : List (Int × Int) := [(1, 0), (1, -1), (0, -1), (-1, -1), (-1, 0), (-1, 1), (0, 1), (1, 1)]

/-- The pixels around a pixel. -/
def around (p : Nat × Nat) : List (Int × Int) := offsets.map fun d => ((p.1 : Int) + d.1, (p.2 : Int) + d.2)

/-- `point_in_image`, /repo/basicimg/include/img_img.h 64–66. -/
def inImage (c : Cfg) (o : Int × Int) : Bool := decide (0 ≤ o.1 ∧ 0 ≤ o.2 ∧ o.1 < c.w ∧ o.2 < c.h)

/-- `point_in_image_boundary`, /repo/basicimg/include/img_img.h 60–62. -/
def inBoundary (c : Cfg) (o : Nat × Nat) : Bool := decide (o.1 = 0 ∨ o.2 = 0 ∨ o.1 + 1 = c.w ∨ o.2 + 1 = c.h)

/-- An image after a write. -/
def put (f : Nat × Nat → Bool) (p : Nat × Nat) (b : Bool) : Nat × Nat → Bool := fun q => if q = p then b else f q

/-- What `remove_small_edge` changes while it collects an edge: the flags, `stackPts` (its back first), `pts`, `hasHighGradientValue`. -/
structure Rem where
  flag : Nat × Nat → Bool
  stack : List (Nat × Nat)
  pts : List (Nat × Nat)
  high : Bool

/-- One pixel around the top of the stack, 244–260. -/
def remPixel (c : Cfg) (edge : Nat × Nat → Bool) (s : Rem) (o : Int × Int) : Option Rem :=
  if inImage c o = true then
    let q := (o.1.toNat, o.2.toNat)
    if s.flag q = true then some s
    else if edge q = true then
      some { flag := put s.flag q true
             stack := if inBoundary c q = true then s.stack else q :: s.stack
             pts := q :: s.pts
             high := s.high || decide (c.keep ≤ c.mag q) }
    else some s
  else none

/-- All pixels around it. -/
def remPixels (c : Cfg) (edge : Nat × Nat → Bool) : List (Int × Int) → Rem → Option Rem
  | [], s => some s
  | o :: l, s => (remPixel c edge s o).bind (remPixels c edge l)

/-- The loop, 239–262. -/
def remLoop (c : Cfg) (edge : Nat × Nat → Bool) : Nat → Rem → Option Rem
  | 0, _ => none
  | n + 1, s =>
    match s.stack with
    | [] => some s
    | p :: rest => (remPixels c edge (around p) { s with stack := rest }).bind (remLoop c edge n)

/-- `remove_small_edge`, 227–273: the edge image and the flags. -/
def removeSmall (c : Cfg) (edge flag : Nat × Nat → Bool) (p : Nat × Nat) : Option ((Nat × Nat → Bool) × (Nat × Nat → Bool)) :=
  (remLoop c edge (c.w * c.h + 2) { flag := put flag p true, stack := [p], pts := [p], high := false }).map fun s =>
  (if s.high = false ∧ s.pts.length ≤ c.noise then fun q => if q ∈ s.pts then false else edge q else edge, s.flag)

/-- The pixels of the loops 196–197, row by row. -/
def innerPixels (c : Cfg) : List (Nat × Nat) := (List.range (c.h - 2)).flatMap fun y => (List.range (c.w - 2)).map fun x => (x + 1, y + 1)

/-- The removal of small edges, 194–204. -/
def removeAll (c : Cfg) : List (Nat × Nat) → (Nat × Nat → Bool) × (Nat × Nat → Bool) → Option ((Nat × Nat → Bool) × (Nat × Nat → Bool))
  | [], s => some s
  | p :: l, s =>
    (if s.1 p = true ∧ c.mag p < c.keep ∧ s.2 p = false then removeSmall c s.1 s.2 p else some s).bind (removeAll c l)

/-- What `trace_edge` changes: the edge image, `m_temp_edge`, `stackPts`. -/
structure Tr where
  edge : Nat × Nat → Bool
  temp : Nat × Nat → Bool
  stack : List (Nat × Nat)

/-- One pixel around the top of the stack, 286–300. -/
def trPixel (c : Cfg) (low : Int) (s : Tr) (o : Int × Int) : Tr :=
  if inImage c o = true then
    let q := (o.1.toNat, o.2.toNat)
    if c.mag q < low ∨ s.edge q = true ∨ s.temp q = false then s
    else { edge := put s.edge q true, temp := put s.temp q false, stack := q :: s.stack }
  else s

/-- The loop of `trace_edge`, 281–302. -/
def trLoop (c : Cfg) (low : Int) : Nat → Tr → Option Tr
  | 0, _ => none
  | n + 1, s =>
    match s.stack with
    | [] => some s
    | p :: rest => trLoop c low n ((around p).foldl (trPixel c low) { s with stack := rest })

/-- All pixels, row by row. -/
def allPixels (c : Cfg) : List (Nat × Nat) := (List.range c.h).flatMap fun y => (List.range c.w).map fun x => (x, y)

/-- `trace_edge` (275–303) for every pixel, 206–213. -/
def traceAll (c : Cfg) : List (Nat × Nat) → (Nat × Nat → Bool) × (Nat × Nat → Bool) → Option ((Nat × Nat → Bool) × (Nat × Nat → Bool))
  | [], s => some s
  | p :: l, s =>
    (if s.1 p = true ∧ s.2 p = true then
        (trLoop c (c.low p) (c.w * c.h + 2) { edge := s.1, temp := put s.2 p false, stack := [p] }).map fun t => (t.edge, t.temp)
      else some s).bind (traceAll c l)

/-- The edge image from the edges `temp` found with the lowest threshold, 162–213. -/
def detect (c : Cfg) (temp : Nat × Nat → Bool) : Option (Nat × Nat → Bool) :=
  (removeAll c (innerPixels c) (fun p => temp p && decide (c.high p < c.mag p), fun _ => false)).bind fun r =>
  (traceAll c (allPixels c) (r.1, temp)).map fun t => t.1

end Verif.AutoCanny
