import Mathlib.Algebra.Order.Ring.Int

/-!
# Numbers and digits

Functions of `mt_helper`, /repo/basicmath/src/mt_helper.cpp and /repo/basicmath/include/mt_helper.h, and `mt_random::random_next_i32`,
/repo/basicmath/src/mt_random.cpp.  Undefined behaviour is the outcome `none`.
-/

namespace Verif.Numbers

/-- The text of `sprintf("%d")` for a number that is not negative: its digits, highest first. -/
def decimal (n : Nat) : List Nat := if n < 10 then [n] else decimal (n / 10) ++ [n % 10]
termination_by n
decreasing_by omega

/-- `atoi` of a text of digits. -/
def atoi (l : List Nat) : Nat := l.foldl (fun a d => 10 * a + d) 0

/-- The loop of `add_five`, mt_helper.cpp 152–164: the index where it stops. -/
def stop (neg : Bool) : List Nat → Nat
  | [] => 0
  | d :: l => if (if neg then 5 < d else d < 5) then 0 else stop neg l + 1

/-- 166–170: the digits from index `i` on move by one, and `5` is put there. -/
def insertAt (i : Nat) (l : List Nat) : List Nat := l.take i ++ 5 :: l.drop i

/-- `add_five`, mt_helper.cpp 134–173.  `-val` and `atoi` are undefined when the value does not fit into `i32`. -/
def addFive (val : Int) : Option Int :=
  if val = -2147483648 then none
  else
    let s := decimal val.natAbs
    let v := atoi (insertAt (stop (decide (val < 0)) s) s)
    if v < 2147483648 then some (if val < 0 then -(v : Int) else v) else none

/-- The loop of `max_lexi_order`, mt_helper.cpp 183–187: the index where it ends. -/
def dropIx : List Nat → Nat
  | x :: y :: l => if x > y then 0 else dropIx (y :: l) + 1
  | _ => 0

/-- `max_lexi_order`, 175–191. -/
def maxLexiOrder (val : List Nat) : List Nat := if val.length ≤ 1 then [] else val.eraseIdx (dropIx val)

/-- The conversion of a number below 2^32 to `int`. -/
def toI32 (i : Nat) : Int := if i < 2147483648 then i else (i : Int) - 4294967296

/-- The inner loop of `one_number`, mt_helper.cpp 121–128: how often the remainder is 1. -/
def ones (z : Int) : Nat := if z = 0 then 0 else (if z.tmod 10 = 1 then 1 else 0) + ones (z.tdiv 10)
termination_by z.natAbs
decreasing_by rw [Int.natAbs_tdiv]; exact Nat.div_lt_self (by omega) (by decide)

/-- The outer loop of `one_number`, 117–129; `none` when it has not ended after `n` steps. -/
def oneLoop : Nat → Nat → Nat → Nat → Option Nat
  | 0, _, _, _ => none
  | n + 1, value, i, res =>
    if i ≤ value then oneLoop n value ((i + 1) % 4294967296) ((res + ones (toI32 i)) % 4294967296) else some res

/-- `random_next_i32`, mt_random.cpp 10–13, for a value `r` of `rand()`: the quotient of 11 and the product of 12 are exact when `RAND_MAX + 1` is
a power of two of at most 22 bits. -/
def randomNext (randMax r : Nat) (min max : Int) : Option Int :=
  if (randMax : Int) + 1 < 2147483648 ∧ max - min + 1 < 2147483648 then
    some ((r * (max - min + 1)).tdiv ((randMax : Int) + 1) + min)
  else none

/-- An integer type: its bits, and whether it is signed. -/
structure IntType where
  bits : Nat
  signed : Bool

/-- The values of the type. -/
def IntType.has (t : IntType) (v : Int) : Prop :=
  if t.signed then -(2 ^ (t.bits - 1) : Int) ≤ v ∧ v < 2 ^ (t.bits - 1) else 0 ≤ v ∧ v < 2 ^ t.bits

instance (t : IntType) (v : Int) : Decidable (t.has v) := by unfold IntType.has; infer_instance

/-- `T v = a - b`, mt_helper.h 65: computed in `int` for the types of fewer bits and then converted; in unsigned arithmetic for the unsigned types;
undefined when a signed difference does not fit. -/
def diff (t : IntType) (a b : Int) : Option Int :=
  if t.signed then
    if t.bits < 32 then some ((a - b + 2 ^ (t.bits - 1)) % 2 ^ t.bits - 2 ^ (t.bits - 1))
    else if t.has (a - b) then some (a - b) else none
  else some ((a - b) % 2 ^ t.bits)

/-- `compare_value`, mt_helper.h 59–75, for the types other than `float` and `double`. -/
def compareValue (t : IntType) (a b : Int) : Option Int :=
  (diff t a b).map fun v => if v = 0 then 0 else if v > 0 then 1 else -1

end Verif.Numbers
