import Verif.Model.Sort

/-!
# The dynamic programming helpers

`basicmath/include/dynamic_programming/*.h`. Vectors are as in `Model/Sort`. Sums are taken over the integers: overflow
of the element type is not considered.
-/

namespace Verif.Dp

open Verif.Sorting (rd)

/-- Variables of the constructor of `mt_max_sum_for_continuous_element`,
mt_max_sum_for_continuous_element.h 13–19. -/
structure Kad where
  maxSum : Int
  tmp : Int
  tmpBegin : Nat
  tmpLen : Nat
  begin : Nat
  len : Nat
deriving DecidableEq

/-- Body of its loop for the value `x` at `i`, 22–36. -/
def kadStep (s : Kad) (i : Nat) (x : Int) : Kad :=
  let s := { s with tmp := s.tmp + x }
  let s := if x > s.tmp then { s with tmp := x, tmpBegin := i, tmpLen := 1 } else { s with tmpLen := s.tmpLen + 1 }
  if s.tmp > s.maxSum then { s with maxSum := s.tmp, begin := s.tmpBegin, len := s.tmpLen } else s

/-- The loop, 21–37: `k` further values from `i` on. -/
def kadLoop (n : Nat) (v : Nat → Int) : Nat → Nat → Kad → Option Kad
  | 0, _, s => some s
  | k + 1, i, s => (rd n v i).bind fun x => kadLoop n v k (i + 1) (kadStep s i x)

/-- `mt_max_sum_for_continuous_element::mt_max_sum_for_continuous_element`, 10–38. -/
def maxSum (n : Nat) (v : Nat → Int) : Option Kad :=
  (rd n v 0).bind fun x => kadLoop n v (n - 1) 1 ⟨x, x, 0, 1, 0, 1⟩

/-- Fields of `mt_longest_common_substring`, mt_longest_common_substring.h 74–81. The begin indexes are `-1` if nothing
was found. -/
structure Lcs where
  mat : Nat → Nat
  len : Nat
  aBegin : Int
  bBegin : Int

variable {T : Type} [DecidableEq T]

/-- Writing to the matrix of `na * nb` cells. -/
def wr (n : Nat) (m : Nat → Nat) (i x : Nat) : Option (Nat → Nat) :=
  if i < n then some (fun y => if y = i then x else m y) else none

/-- Body of the inner loop, mt_longest_common_substring.h 25–37 (`j` is at least 1). -/
def lcsCell (na nb : Nat) (a b : Nat → T) (i j : Nat) (s : Lcs) : Option Lcs :=
  (rd na a 0).bind fun a0 => (rd nb b j).bind fun bj =>
  (wr (na * nb) s.mat (j * na) (if a0 = bj then 1 else 0)).bind fun m1 =>
  (if i > 0 ∧ j > 0 then
    (rd na a i).bind fun ai =>
      if ai = bj then
        (rd (na * nb) m1 ((j - 1) * na + i - 1)).bind fun x => wr (na * nb) m1 (j * na + i) (x + 1)
      else some m1
    else some m1).bind fun m2 =>
  (rd (na * nb) m2 (j * na + i)).bind fun x =>
  if s.len < x then some ⟨m2, x, (i : Int) - x + 1, (j : Int) - x + 1⟩ else some { s with mat := m2 }

/-- The inner loop, 24–38. -/
def lcsInner (na nb : Nat) (a b : Nat → T) (i : Nat) : Nat → Nat → Lcs → Option Lcs
  | 0, _, s => some s
  | k + 1, j, s => (lcsCell na nb a b i j s).bind (lcsInner na nb a b i k (j + 1))

/-- The outer loop, 21–39. -/
def lcsOuter (na nb : Nat) (a b : Nat → T) : Nat → Nat → Lcs → Option Lcs
  | 0, _, s => some s
  | k + 1, i, s =>
    (rd nb b 0).bind fun b0 => (rd na a i).bind fun ai =>
    (wr (na * nb) s.mat i (if b0 = ai then 1 else 0)).bind fun m =>
    (lcsInner na nb a b i (nb - 1) 1 { s with mat := m }).bind (lcsOuter na nb a b k (i + 1))

/-- `mt_longest_common_substring::mt_longest_common_substring`, 9–40. -/
def lcs (na nb : Nat) (a b : Nat → T) : Option Lcs := lcsOuter na nb a b na 0 ⟨fun _ => 0, 0, -1, -1⟩

/-- `all_a_begin_index`, mt_longest_common_substring.h 54–62. -/
def Lcs.allA (na nb : Nat) (s : Lcs) : List Nat := ((List.range (na * nb)).filter fun i => s.mat i = s.len).map (· % na)

/-- An entry of `m_caches`, mt_01_bag.h 33–43. -/
structure Cache where
  range : Nat
  weight : Int
  value : Int
deriving DecidableEq

/-- The search in `m_caches`, mt_01_bag.h 56–61. -/
def lookup : List Cache → Nat → Int → Option Int
  | [], _, _ => none
  | c :: cs, r, w => if c.range = r ∧ c.weight = w then some c.value else lookup cs r w

/-- `mt_01_bag::calculate_value`, mt_01_bag.h 48–82; the first argument is `considered_range + 1`. `none`: an assertion
fails or an access is out of range. -/
def bagValue (n : Nat) (ws vs : Nat → Int) : Nat → Int → List Cache → Option (Int × List Cache)
  | 0, w, cs => if w ≥ 0 then some (0, cs) else none
  | r + 1, w, cs =>
    if w ≥ 0 then
      match lookup cs r w with
      | some x => some (x, cs)
      | none =>
        (bagValue n ws vs r w cs).bind fun p => (rd n ws r).bind fun wr =>
          if w ≥ wr then
            (bagValue n ws vs r (w - wr) p.2).bind fun q => (rd n vs r).bind fun v =>
              some (max p.1 (q.1 + v), q.2 ++ [⟨r, w, max p.1 (q.1 + v)⟩])
          else some (p.1, p.2 ++ [⟨r, w, p.1⟩])
    else none

/-- `mt_01_bag::find_value`, mt_01_bag.h 96–109; the first argument is `considered_range + 1`. -/
def findValue (cs : List Cache) (range1 : Nat) (value : Int) : Bool :=
  if range1 = 0 then true else cs.any fun c => decide (c.range < range1) && decide (c.value = value)

/-- `mt_01_bag::detrermine_flag`, mt_01_bag.h 84–94; the first argument is `considered_range + 1`. The flags are a
function of the item. `all` are the caches; the recursion of the loop is over the caches left. -/
def bagFlags (n : Nat) (vs : Nat → Int) (all : List Cache) : Nat → Int → (Nat → Bool) → Option (Nat → Bool)
  | 0, _, fl => some fl
  | r + 1, value, fl =>
    all.foldlM (m := Option) (fun fl c =>
      if c.value = value ∧ c.range < r + 1 then
        (rd n vs c.range).bind fun v =>
          if findValue all r (value - v) then
            bagFlags n vs all r (value - v) (fun i => if i = c.range then true else fl i)
          else some fl
      else some fl) fl

/-- `mt_01_bag::mt_01_bag`, mt_01_bag.h 11–21: maximum value and flags. -/
def bag (n : Nat) (ws vs : Nat → Int) (limit : Int) : Option (Int × (Nat → Bool)) :=
  if (List.range n).all (fun i => decide (ws i ≥ 0)) then
    (bagValue n ws vs n limit []).bind fun p => (bagFlags n vs p.2 n p.1 (fun _ => false)).bind fun fl => some (p.1, fl)
  else none

end Verif.Dp
