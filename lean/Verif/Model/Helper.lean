import Verif.Model.Sort

/-!
# Helpers of `mt_helper`

`basicmath/include/mt_helper.h` and `basicmath/src/mt_helper.cpp`. Vectors are as in `Model/Sort`. `i32` and `i64`
values are integers; where the property is about overflow, a result that does not fit is the outcome `none`.
-/

namespace Verif.Helper

open Verif.Sorting (rd swp)

variable {T : Type}

/-- Writing an element of a vector of size `n`. -/
def wrv (n : Nat) (f : Nat → T) (i : Nat) (x : T) : Option (Nat → T) :=
  if i < n then some (fun y => if y = i then x else f y) else none

/-- Loop of `mt_helper::integral_array`, mt_helper.h 330–332: `res` has size `m`, `src` has size `n`; `k` iterations
from `i` on. The overload 336–343 has the same loop, with pointers. -/
def integralLoop [Add T] (m n : Nat) (src : Nat → T) : Nat → Nat → (Nat → T) → Option (Nat → T)
  | 0, _, res => some res
  | k + 1, i, res => (rd m res i).bind fun a => (rd n src i).bind fun b =>
      (wrv m res (i + 1) (a + b)).bind (integralLoop m n src k (i + 1))

/-- `mt_helper::integral_array`, mt_helper.h 327–333. -/
def integralArray [Add T] [Zero T] (m n : Nat) (src res : Nat → T) : Option (Nat → T) :=
  (wrv m res 0 0).bind (integralLoop m n src n 0)

/-- Loop of `mt_helper::index_from_multi_index`, mt_helper.h 217–221: `k` indexes `k - 1, …, 0` are left. -/
def flatLoop (n : Nat) (ix sizes : Nat → Int) : Nat → Int → Int → Option Int
  | 0, res, _ => some res
  | k + 1, res, c => (rd n sizes (k + 1)).bind fun s => (rd n ix k).bind fun x => flatLoop n ix sizes k (res + x * (c * s)) (c * s)

/-- `mt_helper::index_from_multi_index`, mt_helper.h 211–224, for vectors of size `n`. -/
def flatIndex (n : Nat) (ix sizes : Nat → Int) : Option Int :=
  if n = 0 then none else (rd n ix (n - 1)).bind fun x => flatLoop n ix sizes (n - 1) x 1

/-- First loop of `mt_helper::multi_index_from_index`, mt_helper.h 231–233. -/
def dimLoop (n : Nat) (sizes : Nat → Int) : Nat → Nat → Int → Option Int
  | 0, _, d => some d
  | k + 1, i, d => (rd n sizes i).bind fun s => dimLoop n sizes k (i + 1) (d * s)

/-- Second loop of `mt_helper::multi_index_from_index`, mt_helper.h 235–241: `sizes` is readable up to index `ns - 1`.
Division is that of C++ (towards zero); division by zero is `none`. -/
def multiLoop (n ns : Nat) (sizes : Nat → Int) : Nat → Nat → Int → Int → (Nat → Int) → Option (Nat → Int)
  | 0, _, _, _, ix => some ix
  | k + 1, i, index, d, ix =>
    if d = 0 then none else
      (rd ns sizes (i + 1)).bind fun s => if s = 0 then none else
        (wrv n ix i (index.tmod d)).bind (multiLoop n ns sizes k (i + 1) (index - index.tmod d * d) (d.tdiv s))

/-- `mt_helper::multi_index_from_index`, mt_helper.h 226–242. -/
def multiIndex (n ns : Nat) (sizes : Nat → Int) (index : Int) : Option (Nat → Int) :=
  (dimLoop ns sizes (n - 1) 1 1).bind fun d => multiLoop n ns sizes n 0 index d (fun _ => 0)

/-- Conversion of an integer to `i32` (two's complement). -/
def toI32 (x : Int) : Int := (x + 2 ^ 31) % 2 ^ 32 - 2 ^ 31

/-- `mt_helper::reverse_i32`, mt_helper.cpp 78–85. `>>` of a negative value keeps the sign; `ch1 << 24` into the sign
bit is the conversion of the unsigned result. -/
def reverseI32 (v : Int) : Int :=
  let ch1 := v % 256
  let ch2 := (v / 2 ^ 8) % 256
  let ch3 := (v / 2 ^ 16) % 256
  let ch4 := (v / 2 ^ 24) % 256
  toI32 (ch1 * 2 ^ 24) + ch2 * 2 ^ 16 + ch3 * 2 ^ 8 + ch4

/-- Loop of `mt_helper::number_of_1`, mt_helper.cpp 90–96 (32 turns) and 104–110 (64 turns); `n & 1` is `n % 2` and
`n >> 1` is `n / 2`, rounding down. -/
def onesLoop : Nat → Int → Nat → Nat
  | 0, _, number => number
  | k + 1, n, number => onesLoop k (n / 2) (if n % 2 ≠ 0 then number + 1 else number)

/-- `mt_helper::number_of_1(i32)`, mt_helper.cpp 87–99. -/
def numberOf1 (n : Int) : Nat := onesLoop 32 n 0

/-- `mt_helper::number_of_1(i64)`, mt_helper.cpp 101–113. -/
def numberOf1Long (n : Int) : Nat := onesLoop 64 n 0

/-- Loop of `mt_helper::flip_vector`, mt_helper.h 419–421: `k` further turns from `i` on. The second index is
`i + size - i - 1`. -/
def flipLoop (n : Nat) : Nat → Nat → (Nat → T) → Option (Nat → T)
  | 0, _, f => some f
  | k + 1, i, f => (swp n f i (i + n - i - 1)).bind (flipLoop n k (i + 1))

/-- `mt_helper::flip_vector`, mt_helper.h 412–422. -/
def flipVector (n : Nat) (f : Nat → T) : Option (Nat → T) := flipLoop n (n / 2) 0 f

/-- Loop of `mt_helper::instance_from_pointer`, mt_helper.h 358–360; a pointer is an index of `mem`. -/
def instLoop (n m : Nat) (src : Nat → Nat) (mem : Nat → T) : Nat → Nat → (Nat → T) → Option (Nat → T)
  | 0, _, res => some res
  | k + 1, i, res => (rd m src i).bind fun p => (wrv n res i (mem p)).bind (instLoop n m src mem k (i + 1))

/-- `mt_helper::instance_from_pointer`, mt_helper.h 355–361: `res` has size `n` and keeps it (`res.resize(res.size())`),
`src` has size `m`. The result is the size and the elements of `res`. -/
def instanceFromPointer (n m : Nat) (src : Nat → Nat) (mem : Nat → T) (res : Nat → T) : Option (Nat × (Nat → T)) :=
  (instLoop n m src mem n 0 res).bind fun r => some (n, r)

/-- The test of `mt_helper::odd_even_sort`, mt_helper.h 371–380: the pair has to be swapped. `%` is that of C++: it has
the sign of the dividend. -/
def wrongPair (oddFront : Bool) (a b : Int) : Bool :=
  if oddFront then decide (a.tmod 2 = 0) && decide (b.tmod 2 = 1) else decide (a.tmod 2 = 1) && decide (b.tmod 2 = 0)

/-- Inner loop of the order keeping branch of `mt_helper::odd_even_sort`, mt_helper.h 370–381: `k` turns from `j` on; the
flag tells whether a pair was swapped. -/
def oePass (n : Nat) (oddFront : Bool) : Nat → Nat → (Nat → Int) → Bool → Option ((Nat → Int) × Bool)
  | 0, _, f, sw => some (f, sw)
  | k + 1, j, f, sw => (rd n f j).bind fun a => (rd n f (j + 1)).bind fun b =>
      if wrongPair oddFront a b then (swp n f j (j + 1)).bind fun f' => oePass n oddFront k (j + 1) f' true
      else oePass n oddFront k (j + 1) f sw

/-- Outer loop, mt_helper.h 367–386. -/
def oeLoop (n : Nat) (oddFront : Bool) : Nat → Nat → (Nat → Int) → Option (Nat → Int)
  | 0, _, f => some f
  | k + 1, i, f => (oePass n oddFront (n - 1 - i) 0 f false).bind fun r =>
      if r.2 then oeLoop n oddFront k (i + 1) r.1 else some r.1

/-- `mt_helper::odd_even_sort` with `reserve_origin_order`, mt_helper.h 364–386. -/
def oddEvenStable (n : Nat) (oddFront : Bool) (f : Nat → Int) : Option (Nat → Int) := oeLoop n oddFront (n - 1) 0 f

/-- Loop of `mt_helper::index_of_max_value`, mt_helper.h 163–167, and of `index_of_min_value`, 176–180. -/
def extremeLoop [LT T] [DecidableRel (α := T) (· < ·)] (n : Nat) (mx : Bool) (f : Nat → T) : Nat → Nat → Nat → Option Nat
  | 0, _, ix => some ix
  | k + 1, i, ix => (rd n f i).bind fun a => (rd n f ix).bind fun b =>
      extremeLoop n mx f k (i + 1) (if (if mx then decide (b < a) else decide (a < b)) then i else ix)

/-- `mt_helper::index_of_max_value` (`mx`) and `mt_helper::index_of_min_value`, mt_helper.h 160–183, on an array of
`n` values. -/
def indexOfExtreme [LT T] [DecidableRel (α := T) (· < ·)] (n : Nat) (mx : Bool) (f : Nat → T) : Option Nat :=
  extremeLoop n mx f (n - 1) 1 0

/-- An `i32` result. -/
def i32 (x : Int) : Option Int := if -2 ^ 31 ≤ x ∧ x < 2 ^ 31 then some x else none

/-- Loop of `mt_helper::factorial`, mt_helper.h 246–248: `k` further factors from `i` on. -/
def factLoop : Nat → Nat → Int → Option Int
  | 0, _, res => some res
  | k + 1, i, res => (i32 (res * i)).bind (factLoop k (i + 1))

/-- `mt_helper::factorial`, mt_helper.h 244–251. -/
def factorial (n : Nat) : Option Int := factLoop n 1 1

/-- `mt_helper::combination`, mt_helper.h 253–256. -/
def combination (n k : Nat) : Option Int :=
  if n ≥ k then
    (factorial n).bind fun a => (factorial k).bind fun b => (factorial (n - k)).bind fun c =>
      (i32 (b * c)).bind fun d => if d = 0 then none else some (a.tdiv d)
  else none

end Verif.Helper
