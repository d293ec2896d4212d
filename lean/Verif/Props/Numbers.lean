import Verif.Proof.Numbers

/-!
# C155–C159: numbers and digits
-/

namespace Verif.Props

open Verif.Numbers Verif.Spec

/-- **C155**, when the result fits into `i32`.  `add_five` gives a number with a digit 5 inserted, and no insertion gives a larger one. -/
theorem C155_add_five_partial (val r : Int) (h : addFive val = some r) :
    (∃ k, HasDigits val.natAbs k ∧ r = if val < 0 then -(insertFive val.natAbs k : Int) else insertFive val.natAbs k) ∧
    ∀ k, HasDigits val.natAbs k → (if val < 0 then -(insertFive val.natAbs k : Int) else insertFive val.natAbs k) ≤ r := by
  unfold addFive at h
  by_cases h0 : val = -2147483648
  · rw [if_pos h0] at h; cases h
  · rw [if_neg h0] at h
    dsimp only at h
    obtain ⟨h1, h2, h3⟩ := decimal_spec val.natAbs
    have hn : ∀ i, i ≤ (decimal val.natAbs).length →
        num (insertAt i (decimal val.natAbs)) = insertFive val.natAbs ((decimal val.natAbs).length - i) := by
      intro i hi
      rw [num_insertAt _ h2 i hi, h1]
    have hs := stop_le (decide (val < 0)) (decimal val.natAbs)
    rw [atoi_num] at h
    split at h
    · cases h
      refine ⟨⟨(decimal val.natAbs).length - stop (decide (val < 0)) (decimal val.natAbs), (h3 _).1 (by omega), ?_⟩, fun k hk => ?_⟩
      · rw [hn _ hs]
      · have hk' := (h3 k).2 hk
        have hj := hn ((decimal val.natAbs).length - k) (by omega)
        rw [show (decimal val.natAbs).length - ((decimal val.natAbs).length - k) = k by omega] at hj
        by_cases hv : val < 0
        · rw [if_pos hv, if_pos hv, ← hj]
          have := stop_neg (decimal val.natAbs) h2 ((decimal val.natAbs).length - k) (by omega)
          simp only [hv, decide_true]
          omega
        · rw [if_neg hv, if_neg hv, ← hj]
          have := stop_pos (decimal val.natAbs) h2 ((decimal val.natAbs).length - k) (by omega)
          simp only [hv, decide_false]
          omega
    · cases h

/-- The result exists for all numbers of fewer than nine digits, and for those of nine whose result fits. -/
theorem C155_defined (val : Int) (h : val.natAbs < 100000000) : (addFive val).isSome := by
  unfold addFive
  rw [if_neg (by omega)]
  dsimp only
  obtain ⟨h1, h2, h3⟩ := decimal_spec val.natAbs
  have hl : (decimal val.natAbs).length ≤ 8 := by
    by_contra hc
    rcases (h3 9).1 (by omega) with h4 | h4
    · omega
    · have : 10 ^ (9 - 1) = 100000000 := by decide
      omega
  have hb := insertAt_lt _ h2 (stop (decide (val < 0)) (decimal val.natAbs))
  have hp : 10 ^ (decimal val.natAbs).length ≤ 10 ^ 8 := Nat.pow_le_pow_right (by omega) hl
  rw [atoi_num, if_pos (by omega)]
  rfl

/-- A negative and a positive number, and 0. -/
example : addFive (-1098) = some (-10598) ∧ addFive 7452 = some 75452 ∧ addFive 0 = some 50 ∧ addFive (-5) = some (-55) := by
  have d : ∀ n, n < 10 → decimal n = [n] := fun n h => by rw [decimal, if_pos h]
  have e1 : decimal 1098 = [1, 0, 9, 8] := by
    rw [decimal, if_neg (by decide), decimal, if_neg (by decide), decimal, if_neg (by decide), d _ (by decide)]; rfl
  have e2 : decimal 7452 = [7, 4, 5, 2] := by
    rw [decimal, if_neg (by decide), decimal, if_neg (by decide), decimal, if_neg (by decide), d _ (by decide)]; rfl
  refine ⟨?_, ?_, ?_, ?_⟩
  · show (if _ then _ else _) = _
    rw [show Int.natAbs (-1098) = 1098 from rfl, e1]; decide
  · show (if _ then _ else _) = _
    rw [show Int.natAbs 7452 = 7452 from rfl, e2]; decide
  · show (if _ then _ else _) = _
    rw [show Int.natAbs 0 = 0 from rfl, d 0 (by decide)]; decide
  · show (if _ then _ else _) = _
    rw [show Int.natAbs (-5) = 5 from rfl, d 5 (by decide)]; decide

/-- C155 fails for a number whose result does not fit although a smaller insertion would. -/
theorem not_C155_overflow : addFive 300000000 = none ∧ insertFive 300000000 0 = 3000000005 ∧ addFive (-2147483648) = none := by
  refine ⟨?_, by decide, by simp [addFive]⟩
  have d : ∀ n, n < 10 → decimal n = [n] := fun n h => by rw [decimal, if_pos h]
  have e : decimal 300000000 = [3, 0, 0, 0, 0, 0, 0, 0, 0] := by
    rw [decimal, if_neg (by decide), decimal, if_neg (by decide), decimal, if_neg (by decide), decimal, if_neg (by decide), decimal,
      if_neg (by decide), decimal, if_neg (by decide), decimal, if_neg (by decide), decimal, if_neg (by decide), d _ (by decide)]
    rfl
  show (if _ then _ else _) = _
  rw [show Int.natAbs 300000000 = 300000000 from rfl, e]
  decide

/-- **C156.**  The text without one of its characters, and of all these texts the first in lexicographic order. -/
theorem C156_least (val : List Nat) (h : val ≠ []) :
    (∃ i < val.length, maxLexiOrder val = val.eraseIdx i) ∧ ∀ j < val.length, LexLe (maxLexiOrder val) (val.eraseIdx j) := by
  unfold maxLexiOrder
  by_cases h1 : val.length ≤ 1
  · rw [if_pos h1]
    refine ⟨⟨0, List.length_pos_iff.2 h, ?_⟩, fun _ _ => trivial⟩
    cases val with
    | nil => exact absurd rfl h
    | cons x l =>
      cases l with
      | nil => rfl
      | cons y l => simp at h1
  · rw [if_neg h1]
    exact ⟨⟨dropIx val, dropIx_lt val h, rfl⟩, dropIx_least val⟩

/-- `hot` becomes `ho`. -/
example : maxLexiOrder [104, 111, 116] = [104, 111] := by decide

/-- The name of the function promises the opposite: the result is not the last in lexicographic order. -/
theorem not_C156_last : ∃ val : List Nat, ∃ j < val.length, ¬ LexLe (val.eraseIdx j) (maxLexiOrder val) :=
  ⟨[97, 99, 98], 0, by decide, by
    show ¬ (99 < 97 ∨ 99 = 97 ∧ _)
    omega⟩

/-- **C157**, below 2^31.  `one_number` counts the digits 1 of the numbers up to its argument. -/
theorem C157_count_partial (value : Nat) (h : value < 2147483648) : oneLoop (value + 2) value 0 0 = some (onesTo value) := by
  have h1 := oneLoop_spec value (by omega) (value + 1) 0 (by omega)
  rw [total_onesTo value h, Nat.mod_eq_of_lt (onesTo_lt value (by omega))] at h1
  exact h1

/-- The numbers up to 13 have six digits 1. -/
example : onesTo 13 = 6 := by decide +kernel

/-- C157 fails from `m + 1` = 2^31 on: the digits 1 of these numbers are not counted, although 2147483648 has one. -/
theorem not_C157_large (m value : Nat) (hm : m + 1 = 2147483648) (h1 : m < value) (h2 : value < 4294967295) :
    oneLoop (value + 2) value 0 0 = some (onesTo m) ∧ onesTo m < onesTo value := by
  constructor
  · have h := oneLoop_spec value h2 (value + 1) 0 (by omega)
    have e := total_large m hm (value - m) (by omega)
    rw [show m + 1 + (value - m) = value + 1 by omega, total_onesTo m (by omega)] at e
    rw [e, Nat.mod_eq_of_lt (onesTo_lt m (by omega))] at h
    exact h
  · have h := below_mono (show m + 2 ≤ value + 1 by omega)
    rw [below_onesTo value (by omega), below, below_onesTo m (by omega), ones_onesOf 10 (m + 1) (by omega), hm] at h
    have e : onesOf 10 2147483648 = 1 := by decide +kernel
    omega

/-- For the largest argument the loop never ends. -/
theorem not_C157_end (n : Nat) : oneLoop n 4294967295 0 0 = none := oneLoop_never n 0 0 (by omega)

/-- **C158**, for a range of fewer than 2^31 values and `RAND_MAX` below 2^31 - 1.  The random number is in the range. -/
theorem C158_range_partial (randMax r : Nat) (min max : Int) (hr : r ≤ randMax) (hm : min ≤ max) (h1 : max - min + 1 < 2147483648)
    (h2 : randMax < 2147483647) : ∃ v, randomNext randMax r min max = some v ∧ min ≤ v ∧ v ≤ max := by
  unfold randomNext
  rw [if_pos ⟨by omega, h1⟩]
  refine ⟨_, rfl, ?_, ?_⟩
  all_goals
    have h0 : 0 ≤ (r : Int) * (max - min + 1) := Int.mul_nonneg (by omega) (by omega)
    rw [Int.tdiv_eq_ediv_of_nonneg h0]
  · have := Int.ediv_nonneg h0 (show (0 : Int) ≤ (randMax : Int) + 1 by omega)
    omega
  · have h3 : (r : Int) * (max - min + 1) < (max - min + 1) * ((randMax : Int) + 1) := by
      rw [Int.mul_comm]
      exact Int.mul_lt_mul_of_pos_left (by omega) (by omega)
    have := Int.ediv_lt_of_lt_mul (show (0 : Int) < (randMax : Int) + 1 by omega) h3
    omega

/-- A range of at most `RAND_MAX + 1` values is reached in all of its values. -/
theorem C158_all_partial (randMax : Nat) (min max v : Int) (hv : min ≤ v ∧ v ≤ max) (h1 : max - min + 1 < 2147483648)
    (h2 : randMax < 2147483647) (h3 : max - min ≤ randMax) : ∃ r ≤ randMax, randomNext randMax r min max = some v := by
  obtain ⟨w, hw⟩ : ∃ w : Nat, (w : Int) = max - min + 1 := ⟨(max - min + 1).toNat, by omega⟩
  obtain ⟨k, hk⟩ : ∃ k : Nat, (k : Int) = v - min := ⟨(v - min).toNat, by omega⟩
  have hkw : k < w := by omega
  have hwp : 0 < w := by omega
  -- the least r with r * w at least k * (RAND_MAX + 1)
  have hr1 : k * (randMax + 1) ≤ (k * (randMax + 1) + w - 1) / w * w := by
    have := Nat.div_add_mod (k * (randMax + 1) + w - 1) w
    have h5 := Nat.mod_lt (k * (randMax + 1) + w - 1) hwp
    rw [Nat.mul_comm] at this
    omega
  have hr2 : (k * (randMax + 1) + w - 1) / w * w ≤ k * (randMax + 1) + w - 1 := Nat.div_mul_le_self _ _
  generalize (k * (randMax + 1) + w - 1) / w = r at hr1 hr2
  have hlt : r * w < (k + 1) * (randMax + 1) := by
    rw [Nat.add_mul, Nat.one_mul]; omega
  refine ⟨r, ?_, ?_⟩
  · have h5 : (k + 1) * (randMax + 1) ≤ w * (randMax + 1) := Nat.mul_le_mul_right _ hkw
    have h6 : r * w < (randMax + 1) * w := by rw [Nat.mul_comm (randMax + 1)]; omega
    have := Nat.lt_of_mul_lt_mul_right h6
    omega
  · unfold randomNext
    rw [if_pos ⟨by omega, h1⟩, ← hw]
    have e : ((r : Int) * (w : Int)).tdiv ((randMax : Int) + 1) = ((r * w / (randMax + 1) : Nat) : Int) := by
      rw [Int.tdiv_eq_ediv_of_nonneg (by positivity)]
      push_cast
      rfl
    have e2 : r * w / (randMax + 1) = k := by
      apply Nat.div_eq_of_lt_le
      · exact hr1
      · exact hlt
    rw [e, e2, hk]
    congr 1
    omega

/-- The values of a die. -/
example : (randomNext 32767 0 1 6, randomNext 32767 32767 1 6) = (some 1, some 6) := by decide

/-- With 15 bits a value of a range of 65536 values is never reached. -/
theorem not_C158_all : ∀ r ≤ 32767, randomNext 32767 r 0 65535 ≠ some 1 := by
  intro r hr h
  unfold randomNext at h
  rw [if_pos (by decide)] at h
  have h := Option.some.inj h
  rw [Int.tdiv_eq_ediv_of_nonneg (by omega)] at h
  omega

/-- With the `RAND_MAX` of other systems the sum of line 11 is undefined for all ranges. -/
theorem not_C158_rand_max (r : Nat) (min max : Int) : randomNext 2147483647 r min max = none := by
  unfold randomNext
  rw [if_neg (by omega)]

/-- **C159**, for the result 0.  Two values compare as equal exactly when they are. -/
theorem C159_equal_partial (t : IntType) (a b : Int) (hb : 0 < t.bits) (ha : t.has a) (hc : t.has b) (r : Int)
    (h : compareValue t a b = some r) : r = 0 ↔ a = b := by
  have small : ∀ q x : Int, 0 < q → -(2 * q) < x → x < 2 * q → x % (2 * q) = 0 → x = 0 := by
    intro q x h0 h1 h2 h3
    have := Int.mul_ediv_add_emod x (2 * q)
    rw [h3, Int.add_zero] at this
    have h4 : x / (2 * q) < 1 := Int.ediv_lt_of_lt_mul (by omega) (by omega)
    have h5 : -1 < x / (2 * q) := by
      by_contra hc
      have : 2 * q * (x / (2 * q)) ≤ 2 * q * (-1) := Int.mul_le_mul_of_nonneg_left (by omega) (by omega)
      omega
    have h6 : x / (2 * q) = 0 := by omega
    rw [h6] at this
    omega
  have hp : (2 : Int) ^ t.bits = 2 * 2 ^ (t.bits - 1) := by
    rw [← pow_succ']; congr 1; omega
  have hq : (0 : Int) < 2 ^ (t.bits - 1) := by positivity
  have key : ∀ v, diff t a b = some v → (v = 0 ↔ a = b) := by
    intro v hv
    unfold diff at hv
    unfold IntType.has at ha hc
    by_cases hs : t.signed = true
    · rw [if_pos hs] at ha hc hv
      split at hv
      · have hv := Option.some.inj hv
        rw [hp] at hv
        generalize (2 : Int) ^ (t.bits - 1) = q at ha hc hv hq
        subst hv
        constructor
        · intro h0
          have h1 : (a - b) % (2 * q) = 0 := by
            have h2 : (a - b + q) % (2 * q) = q := by omega
            have h3 : a - b = (a - b + q) - q := by omega
            have h4 : q % (2 * q) = q := Int.emod_eq_of_lt (by omega) (by omega)
            rw [h3, Int.sub_emod, h2, h4, Int.sub_self, Int.zero_emod]
          have := small q (a - b) hq (by omega) (by omega) h1
          omega
        · rintro rfl
          rw [Int.sub_self, Int.zero_add, Int.emod_eq_of_lt (by omega) (by omega)]
          omega
      · split at hv
        · cases hv; omega
        · cases hv
    · rw [if_neg hs] at ha hc hv
      have hv := Option.some.inj hv
      rw [hp] at hv ha hc
      generalize (2 : Int) ^ (t.bits - 1) = q at ha hc hv hq
      subst hv
      constructor
      · intro h0
        have := small q (a - b) hq (by omega) (by omega) h0
        omega
      · rintro rfl; simp
  unfold compareValue at h
  rw [Option.map_eq_some_iff] at h
  obtain ⟨v, hv, rfl⟩ := h
  rw [← key v hv]
  split
  · simp_all
  · split <;> simp_all

/-- C159 for signed types and differences that fit: the sign is the right one. -/
theorem C159_order_partial (t : IntType) (a b : Int) (hb : 0 < t.bits) (hs : t.signed = true) (hd : t.has (a - b)) :
    compareValue t a b = some (if a = b then 0 else if a > b then 1 else -1) := by
  have e : diff t a b = some (a - b) := by
    unfold diff
    rw [if_pos hs]
    split
    · congr 1
      unfold IntType.has at hd
      rw [if_pos hs] at hd
      have hp : (2 : Int) ^ t.bits = 2 * 2 ^ (t.bits - 1) := by
        rw [← pow_succ']; congr 1; omega
      rw [hp]
      generalize (2 : Int) ^ (t.bits - 1) = q at *
      rw [Int.emod_eq_of_lt (by omega) (by omega)]
      omega
    · rfl
  unfold compareValue
  rw [e, Option.map_some]
  congr 1
  by_cases h1 : a = b
  · rw [if_pos h1, if_pos (by omega)]
  · rw [if_neg h1, if_neg (by omega)]
    by_cases h2 : a > b
    · rw [if_pos h2, if_pos (by omega)]
    · rw [if_neg h2, if_neg (by omega)]

/-- Numbers of 32 bits. -/
example : compareValue ⟨32, true⟩ (-7) 12 = some (-1) := by decide

/-- C159: there is a result for all values of unsigned types and of types with less than 32 bits. -/
theorem C159_defined_partial (t : IntType) (a b : Int) (h : t.signed = false ∨ t.bits < 32) : (compareValue t a b).isSome = true := by
  unfold compareValue diff
  rcases h with h | h
  · simp [h]
  · by_cases hs : t.signed = true
    · simp [h, hs]
    · simp [hs]

example : compareValue ⟨16, true⟩ 30000 (-30000) = some (-1) := by decide

/-- C159 fails for unsigned types, where the smaller value is never recognised: 1 against 2. -/
theorem not_C159_unsigned : compareValue ⟨8, false⟩ 1 2 = some 1 := by decide

/-- For small signed types the sign may be wrong: 100 against -100 of 8 bits. -/
theorem not_C159_small : compareValue ⟨8, true⟩ 100 (-100) = some (-1) := by decide

/-- For others the difference may be undefined. -/
theorem not_C159_undefined : compareValue ⟨32, true⟩ 2147483647 (-1) = none := by decide

end Verif.Props
