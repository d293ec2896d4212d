import Verif.Model.Numbers
import Verif.Spec.Numbers
import Mathlib.Tactic.Linarith
import Mathlib.Tactic.Ring

/-!
# Numbers and digits: proofs
-/

namespace Verif.Numbers

open Verif.Spec

/-- The number of the digits by recursion. -/
def num : List Nat → Nat
  | [] => 0
  | d :: l => d * 10 ^ l.length + num l

theorem foldl_num (l : List Nat) : ∀ a, l.foldl (fun a d => 10 * a + d) a = a * 10 ^ l.length + num l := by
  induction l with
  | nil => intro a; simp [num]
  | cons d l ih =>
    intro a
    rw [List.foldl_cons, ih, num, List.length_cons, Nat.pow_succ]
    ring

theorem atoi_num (l : List Nat) : atoi l = num l := by simp [atoi, foldl_num]

theorem num_append (l m : List Nat) : num (l ++ m) = num l * 10 ^ m.length + num m := by
  induction l with
  | nil => simp [num]
  | cons d l ih => rw [List.cons_append, num, num, ih, List.length_append, Nat.pow_add]; ring

theorem num_lt (l : List Nat) (h : ∀ d ∈ l, d < 10) : num l < 10 ^ l.length := by
  induction l with
  | nil => simp [num]
  | cons d l ih =>
    have h1 := ih fun x hx => h x (List.mem_cons_of_mem _ hx)
    have h2 : d < 10 := h d List.mem_cons_self
    rw [num, List.length_cons, Nat.pow_succ]
    generalize 10 ^ l.length = p at *
    have : d * p ≤ 9 * p := Nat.mul_le_mul_right p (by omega)
    omega

theorem decimal_spec (n : Nat) : num (decimal n) = n ∧ (∀ d ∈ decimal n, d < 10) ∧ (∀ k, k ≤ (decimal n).length ↔ HasDigits n k) := by
  induction n using Nat.strong_induction_on with
  | _ n ih =>
    rw [decimal]
    by_cases h : n < 10
    · rw [if_pos h]
      refine ⟨by simp [num], by simpa using h, fun k => ?_⟩
      constructor
      · intro hk; left; simpa using hk
      · rintro (hk | hk)
        · simpa using hk
        · by_contra hc
          have hc : 1 < k := by simpa using hc
          have : 10 ^ 1 ≤ 10 ^ (k - 1) := Nat.pow_le_pow_right (by omega) (by omega)
          omega
    · rw [if_neg h]
      obtain ⟨h1, h2, h3⟩ := ih (n / 10) (by omega)
      refine ⟨?_, ?_, fun k => ?_⟩
      · rw [num_append, h1]; simp [num]; omega
      · intro d hd
        rw [List.mem_append] at hd
        rcases hd with hd | hd
        · exact h2 d hd
        · have : d = n % 10 := by simpa using hd
          omega
      · rw [List.length_append, List.length_singleton]
        unfold HasDigits at h3 ⊢
        have h4 := h3 (k - 1)
        by_cases hk : k ≤ 1
        · exact ⟨fun _ => Or.inl hk, fun _ => by omega⟩
        · constructor
          · intro hl
            right
            rcases h4.1 (by omega) with h5 | h5
            · have : k = 2 := by omega
              subst this
              show 10 ^ 1 ≤ n
              omega
            · have h6 : 10 ^ (k - 1) = 10 ^ (k - 1 - 1) * 10 := by rw [← Nat.pow_succ]; congr 1; omega
              rw [h6]
              generalize 10 ^ (k - 1 - 1) = p at *
              omega
          · rintro (hl | hl)
            · omega
            · have h6 : 10 ^ (k - 1) = 10 ^ (k - 1 - 1) * 10 := by rw [← Nat.pow_succ]; congr 1; omega
              rw [h6] at hl
              have := h4.2 (Or.inr (by generalize 10 ^ (k - 1 - 1) = p at *; omega))
              omega

theorem num_insertAt (l : List Nat) (h : ∀ d ∈ l, d < 10) (i : Nat) (hi : i ≤ l.length) :
    num (insertAt i l) = insertFive (num l) (l.length - i) := by
  have hl : num l = num (l.take i) * 10 ^ (l.length - i) + num (l.drop i) := by
    conv_lhs => rw [← List.take_append_drop i l]
    rw [num_append, List.length_drop]
  have hd : num (l.drop i) < 10 ^ (l.length - i) := by
    have := num_lt (l.drop i) fun d hd => h d (List.mem_of_mem_drop hd)
    rwa [List.length_drop] at this
  unfold insertAt insertFive
  rw [num_append, num, List.length_cons, List.length_drop, hl]
  have hp : 0 < 10 ^ (l.length - i) := Nat.pow_pos (by omega)
  have e1 : (num (l.take i) * 10 ^ (l.length - i) + num (l.drop i)) / 10 ^ (l.length - i) = num (l.take i) := by
    rw [Nat.add_comm, Nat.add_mul_div_right _ _ hp, Nat.div_eq_of_lt hd, Nat.zero_add]
  have e2 : (num (l.take i) * 10 ^ (l.length - i) + num (l.drop i)) % 10 ^ (l.length - i) = num (l.drop i) := by
    rw [Nat.add_comm, Nat.add_mul_mod_self_right, Nat.mod_eq_of_lt hd]
  rw [e1, e2]
  ring

theorem insertAt_length (l : List Nat) (i : Nat) : (insertAt i l).length = l.length + 1 := by
  simp [insertAt]; omega

theorem insertAt_lt (l : List Nat) (h : ∀ d ∈ l, d < 10) (i : Nat) : num (insertAt i l) < 10 ^ l.length * 10 := by
  have := num_lt (insertAt i l) (by
    intro d hd
    unfold insertAt at hd
    rw [List.mem_append, List.mem_cons] at hd
    rcases hd with hd | hd | hd
    · exact h d (List.mem_of_mem_take hd)
    · omega
    · exact h d (List.mem_of_mem_drop hd))
  rwa [insertAt_length, Nat.pow_succ] at this

theorem insertAt_zero (l : List Nat) : num (insertAt 0 l) = 5 * 10 ^ l.length + num l := by simp [insertAt, num]

theorem insertAt_succ (d : Nat) (l : List Nat) (i : Nat) : num (insertAt (i + 1) (d :: l)) = d * (10 ^ l.length * 10) + num (insertAt i l) := by
  have : insertAt (i + 1) (d :: l) = d :: insertAt i l := by simp [insertAt]
  rw [this, num, insertAt_length, Nat.pow_succ]

theorem stop_le (neg : Bool) (l : List Nat) : stop neg l ≤ l.length := by
  induction l with
  | nil => simp [stop]
  | cons d l ih =>
    unfold stop
    rw [List.length_cons]
    split <;> split <;> omega

theorem stop_pos (l : List Nat) (h : ∀ d ∈ l, d < 10) : ∀ j ≤ l.length, num (insertAt j l) ≤ num (insertAt (stop false l) l) := by
  induction l with
  | nil => intro j hj; simp [insertAt]
  | cons d l ih =>
    have hl : ∀ x ∈ l, x < 10 := fun x hx => h x (List.mem_cons_of_mem _ hx)
    have hd : d < 10 := h d List.mem_cons_self
    have h0 := num_lt l hl
    have ih := ih hl
    intro j hj
    by_cases h5 : d < 5
    · have hs : stop false (d :: l) = 0 := by simp [stop, h5]
      rw [hs]
      cases j with
      | zero => exact le_refl _
      | succ j =>
        rw [insertAt_succ, insertAt_zero, List.length_cons, Nat.pow_succ]
        have := insertAt_lt l hl j
        generalize 10 ^ l.length = p at *
        have : d * (p * 10) ≤ 4 * (p * 10) := Nat.mul_le_mul_right _ (by omega)
        omega
    · have hs : stop false (d :: l) = stop false l + 1 := by simp [stop, h5]
      rw [hs, insertAt_succ]
      cases j with
      | zero =>
        have h1 := ih 0 (by omega)
        rw [insertAt_zero] at h1
        rw [insertAt_zero, List.length_cons, Nat.pow_succ, num]
        generalize 10 ^ l.length = p at *
        by_cases h6 : d = 5
        · subst h6; omega
        · have h7 : 6 * (p * 10) ≤ d * (p * 10) := Nat.mul_le_mul_right _ (by omega)
          have h8 : d * p ≤ 9 * p := Nat.mul_le_mul_right _ (by omega)
          omega
      | succ j =>
        rw [insertAt_succ]
        have := ih j (by simpa using hj)
        omega

theorem stop_neg (l : List Nat) (h : ∀ d ∈ l, d < 10) : ∀ j ≤ l.length, num (insertAt (stop true l) l) ≤ num (insertAt j l) := by
  induction l with
  | nil => intro j hj; simp [insertAt]
  | cons d l ih =>
    have hl : ∀ x ∈ l, x < 10 := fun x hx => h x (List.mem_cons_of_mem _ hx)
    have hd : d < 10 := h d List.mem_cons_self
    have h0 := num_lt l hl
    have ih := ih hl
    intro j hj
    by_cases h5 : 5 < d
    · have hs : stop true (d :: l) = 0 := by simp [stop, h5]
      rw [hs]
      cases j with
      | zero => exact le_refl _
      | succ j =>
        rw [insertAt_succ, insertAt_zero, List.length_cons, Nat.pow_succ, num]
        generalize 10 ^ l.length = p at *
        have h7 : 6 * (p * 10) ≤ d * (p * 10) := Nat.mul_le_mul_right _ (by omega)
        have h8 : d * p ≤ 9 * p := Nat.mul_le_mul_right _ (by omega)
        omega
    · have hs : stop true (d :: l) = stop true l + 1 := by simp [stop, h5]
      rw [hs, insertAt_succ]
      cases j with
      | zero =>
        have h1 := ih 0 (by omega)
        have h2 := insertAt_lt l hl (stop true l)
        rw [insertAt_zero] at h1
        rw [insertAt_zero, List.length_cons, Nat.pow_succ, num]
        generalize 10 ^ l.length = p at *
        by_cases h6 : d = 5
        · subst h6; omega
        · have h7 : d * (p * 10) ≤ 4 * (p * 10) := Nat.mul_le_mul_right _ (by omega)
          omega
      | succ j =>
        rw [insertAt_succ]
        have := ih j (by simpa using hj)
        omega

theorem lexLe_refl (l : List Nat) : LexLe l l := by
  induction l with
  | nil => trivial
  | cons x l ih => exact Or.inr ⟨rfl, ih⟩

theorem dropIx_lt (l : List Nat) (h : l ≠ []) : dropIx l < l.length := by
  induction l with
  | nil => exact absurd rfl h
  | cons x l ih =>
    cases l with
    | nil => simp [dropIx]
    | cons y l =>
      unfold dropIx
      have := ih (by simp)
      split
      · simp
      · rw [List.length_cons]; omega

theorem dropIx_least (l : List Nat) : ∀ j < l.length, LexLe (l.eraseIdx (dropIx l)) (l.eraseIdx j) := by
  induction l with
  | nil => intro j hj; simp at hj
  | cons x l ih =>
    cases l with
    | nil => intro j hj; simp [dropIx, LexLe]
    | cons y l =>
      intro j hj
      by_cases h : x > y
      · rw [dropIx, if_pos h]
        cases j with
        | zero => exact lexLe_refl _
        | succ j => exact Or.inl h
      · rw [dropIx, if_neg h]
        cases j with
        | zero =>
          have h1 := ih 0 (by simp)
          show x < y ∨ x = y ∧ _
          by_cases h2 : x < y
          · exact Or.inl h2
          · exact Or.inr ⟨by omega, h1⟩
        | succ j => exact Or.inr ⟨rfl, ih j (by simpa using hj)⟩

theorem ones_onesOf : ∀ (k : Nat) (n : Nat), n < 10 ^ k → ones n = onesOf k n := by
  intro k
  induction k with
  | zero => intro n h; have : n = 0 := by simpa using h
            subst this; rw [ones]; simp [onesOf]
  | succ k ih =>
    intro n h
    have hk : ones ((n / 10 : Nat) : Int) = onesOf k (n / 10) := ih (n / 10) (by rw [Nat.pow_succ] at h; omega)
    have hs : onesOf (k + 1) n = (if n % 10 = 1 then 1 else 0) + onesOf k (n / 10) := by
      unfold onesOf
      rw [List.range_succ_eq_map, List.filter_cons]
      have hm : ((List.range k).map Nat.succ).filter (fun j => n / 10 ^ j % 10 == 1) =
          ((List.range k).filter fun j => n / 10 / 10 ^ j % 10 == 1).map Nat.succ := by
        rw [List.filter_map]
        congr 1
        apply List.filter_congr
        intro j _
        show (n / 10 ^ (j + 1) % 10 == 1) = _
        rw [Nat.pow_succ, Nat.mul_comm, Nat.div_div_eq_div_mul]
      rw [hm]
      by_cases h1 : n % 10 = 1
      · simp [h1]; omega
      · simp [h1]
    rw [hs, ← hk, ones]
    by_cases h0 : (n : Int) = 0
    · have : n = 0 := by omega
      subst this
      have : ones 0 = 0 := by rw [ones]; simp
      simp [this]
    · rw [if_neg h0]
      have e1 : (n : Int).tmod 10 = ((n % 10 : Nat) : Int) := by rw [Int.tmod_eq_emod_of_nonneg (by omega)]; omega
      have e2 : (n : Int).tdiv 10 = ((n / 10 : Nat) : Int) := by rw [Int.tdiv_eq_ediv_of_nonneg (by omega)]; omega
      rw [e1, e2]
      congr 1
      by_cases h1 : n % 10 = 1
      · simp [h1]
      · rw [if_neg h1, if_neg (by omega)]

/-- What the loop adds up. -/
def total (i : Nat) : Nat := ((List.range i).map fun j => ones (toI32 j)).sum

theorem total_succ (i : Nat) : total (i + 1) = total i + ones (toI32 i) := by simp [total, List.range_succ]

theorem oneLoop_spec (value : Nat) (hv : value < 4294967295) : ∀ (m i : Nat), i + m = value + 1 →
    oneLoop (m + 1) value i (total i % 4294967296) = some (total (value + 1) % 4294967296) := by
  intro m
  induction m with
  | zero =>
    intro i h
    have : i = value + 1 := by omega
    subst this
    rw [oneLoop, if_neg (by omega)]
  | succ m ih =>
    intro i h
    rw [oneLoop, if_pos (by omega)]
    have e1 : (i + 1) % 4294967296 = i + 1 := Nat.mod_eq_of_lt (by omega)
    have e2 : (total i % 4294967296 + ones (toI32 i)) % 4294967296 = total (i + 1) % 4294967296 := by
      rw [total_succ]; omega
    rw [e1, e2]
    exact ih (i + 1) (by omega)

theorem oneLoop_never : ∀ (n i res : Nat), i < 4294967296 → oneLoop n 4294967295 i res = none := by
  intro n
  induction n with
  | zero => intro i res _; rfl
  | succ n ih => intro i res h; rw [oneLoop, if_pos (by omega)]; exact ih _ _ (by omega)

theorem total_onesTo (n : Nat) (h : n < 2147483648) : total (n + 1) = onesTo n := by
  unfold total onesTo
  congr 1
  apply List.map_congr_left
  intro j hj
  rw [List.mem_range] at hj
  rw [toI32, if_pos (by omega)]
  exact ones_onesOf 10 j (by omega)

theorem ones_zero : ones 0 = 0 := by rw [ones]; simp

theorem ones_step (m r : Nat) (hr : r < 10) : ones ((10 * m + r : Nat) : Int) = (if r = 1 then 1 else 0) + ones (m : Int) := by
  rw [ones]
  by_cases h0 : ((10 * m + r : Nat) : Int) = 0
  · have h1 : m = 0 := by omega
    have h2 : r = 0 := by omega
    subst h1; subst h2
    simp [ones_zero]
  · rw [if_neg h0]
    have e1 : ((10 * m + r : Nat) : Int).tmod 10 = (r : Int) := by rw [Int.tmod_eq_emod_of_nonneg (by omega)]; omega
    have e2 : ((10 * m + r : Nat) : Int).tdiv 10 = (m : Int) := by rw [Int.tdiv_eq_ediv_of_nonneg (by omega)]; omega
    rw [e1, e2]
    congr 1
    by_cases h1 : r = 1
    · simp [h1]
    · rw [if_neg h1, if_neg (by omega)]

/-- The digits 1 of the numbers below `n`. -/
def below : Nat → Nat
  | 0 => 0
  | n + 1 => below n + ones (n : Int)

theorem below_ten (m : Nat) : below (10 * m) = 10 * below m + m := by
  induction m with
  | zero => rfl
  | succ m ih =>
    have e : 10 * (m + 1) = 10 * m + 9 + 1 := by omega
    rw [e]
    simp only [below]
    have h0 := ones_step m 0 (by omega)
    have h1 := ones_step m 1 (by omega)
    have h2 := ones_step m 2 (by omega)
    have h3 := ones_step m 3 (by omega)
    have h4 := ones_step m 4 (by omega)
    have h5 := ones_step m 5 (by omega)
    have h6 := ones_step m 6 (by omega)
    have h7 := ones_step m 7 (by omega)
    have h8 := ones_step m 8 (by omega)
    have h9 := ones_step m 9 (by omega)
    simp at h0 h1 h2 h3 h4 h5 h6 h7 h8 h9
    push_cast
    omega

theorem below_mono {a b : Nat} (h : a ≤ b) : below a ≤ below b := by
  induction h with
  | refl => exact le_refl _
  | step _ ih => exact le_trans ih (Nat.le_add_right _ _)

theorem below_three : below 3000000000 = 3700000000 := by
  have h0 : below 3 = 1 := by
    have h1 := ones_step 0 0 (by omega)
    have h2 := ones_step 0 1 (by omega)
    have h3 := ones_step 0 2 (by omega)
    simp [ones_zero] at h2 h3
    simp [below, ones_zero, h2, h3]
  have h1 : below 30 = 10 * below 3 + 3 := below_ten 3
  have h2 : below 300 = 10 * below 30 + 30 := below_ten 30
  have h3 : below 3000 = 10 * below 300 + 300 := below_ten 300
  have h4 : below 30000 = 10 * below 3000 + 3000 := below_ten 3000
  have h5 : below 300000 = 10 * below 30000 + 30000 := below_ten 30000
  have h6 : below 3000000 = 10 * below 300000 + 300000 := below_ten 300000
  have h7 : below 30000000 = 10 * below 3000000 + 3000000 := below_ten 3000000
  have h8 : below 300000000 = 10 * below 30000000 + 30000000 := below_ten 30000000
  have h9 : below 3000000000 = 10 * below 300000000 + 300000000 := below_ten 300000000
  omega

theorem below_onesTo (n : Nat) (h : n < 10000000000) : below (n + 1) = onesTo n := by
  have : ∀ k, k ≤ 10000000000 → below k = ((List.range k).map (onesOf 10)).sum := by
    intro k
    induction k with
    | zero => intro _; rfl
    | succ k ih =>
      intro hk
      rw [below, ih (by omega), List.range_succ, List.map_append, List.sum_append, ones_onesOf 10 k (by omega)]
      simp
  exact this (n + 1) (by omega)

theorem onesTo_lt (n : Nat) (h : n < 3000000000) : onesTo n < 4294967296 := by
  rw [← below_onesTo n (by omega)]
  have := below_mono (show n + 1 ≤ 3000000000 by omega)
  rw [below_three] at this
  omega

theorem ones_neg (k : Nat) : ∀ z : Int, z ≤ 0 → z.natAbs ≤ k → ones z = 0 := by
  induction k with
  | zero => intro z _ h; have : z = 0 := by omega
            subst this; exact ones_zero
  | succ k ih =>
    intro z hz h
    by_cases h0 : z = 0
    · subst h0; exact ones_zero
    · rw [ones, if_neg h0]
      have e1 : z.tmod 10 ≤ 0 := by
        have h1 : (-z).tmod 10 = -(z.tmod 10) := Int.neg_tmod z 10
        have h2 : 0 ≤ (-z).tmod 10 := Int.tmod_nonneg _ (by omega)
        omega
      have e2 : (-z).tdiv 10 = -(z.tdiv 10) := Int.neg_tdiv z 10
      have e3 : (-z).tdiv 10 = -z / 10 := Int.tdiv_eq_ediv_of_nonneg (by omega)
      rw [if_neg (by omega), ih _ (by omega) (by omega)]

theorem total_large (m : Nat) (hm : m + 1 = 2147483648) (k : Nat) : m + 1 + k ≤ 4294967296 → total (m + 1 + k) = total (m + 1) := by
  induction k with
  | zero => intro _; rfl
  | succ k ih =>
    intro h
    have e : ones (toI32 (m + 1 + k)) = 0 := by
      apply ones_neg (toI32 (m + 1 + k)).natAbs _ _ (le_refl _)
      unfold toI32
      rw [if_neg (by omega)]
      omega
    rw [← Nat.add_assoc, total_succ, ih (by omega), e, Nat.add_zero]

end Verif.Numbers
