import Verif.Model.DataType
import Verif.Props.Strings
import Mathlib.Data.Nat.Bitwise
import Mathlib.Algebra.Order.Ring.Int

/-!
# Type names, sizes of convolutions and poolings
-/

namespace Verif.Props
open Verif.Str Verif.Spec Verif.DataType

theorem pack_eq (depth channel : Nat) (hd : depth < 65536) : pack depth channel = (channel - 1) * 65536 + depth := by
  rw [pack, ← Nat.shiftLeft_add_eq_or_of_lt (by simpa using hd), Nat.shiftLeft_eq]

theorem pack_depth (depth channel : Nat) (hd : depth < 65536) : maskDepth (pack depth channel) = depth := by
  rw [pack_eq _ _ hd, maskDepth, show 0x0000ffff = 2 ^ 16 - 1 by norm_num, Nat.and_two_pow_sub_one_eq_mod]
  omega

theorem pack_channel (depth channel : Nat) (hd : depth < 65536) (h1 : 1 ≤ channel) (h2 : channel ≤ 32768) :
    maskChannel (pack depth channel) = channel := by
  rw [pack_eq _ _ hd, maskChannel, Nat.shiftRight_and_distrib, show 0x7fff0000 >>> 16 = 2 ^ 15 - 1 by decide,
    Nat.and_two_pow_sub_one_eq_mod, Nat.shiftRight_eq_div_pow]
  omega

theorem digit_nat (n : Nat) (h : n < 10) : (Char.ofNat (48 + n)).toNat = 48 + n := by
  have : ∀ n : Fin 10, (Char.ofNat (48 + n.1)).toNat = 48 + n.1 := by decide
  exact this ⟨n, h⟩

theorem decimal_digits (n : Nat) : ∀ c ∈ decimal n, 48 ≤ c.toNat ∧ c.toNat ≤ 57 := by
  induction n using decimal.induct with
  | case1 n h =>
    intro c hc
    rw [decimal, if_pos h, List.mem_singleton] at hc
    rw [hc, digit_nat _ h]; omega
  | case2 n h ih =>
    intro c hc
    rw [decimal, if_neg h, List.mem_append, List.mem_singleton] at hc
    rcases hc with hc | hc
    · exact ih c hc
    · rw [hc, digit_nat _ (by omega)]; omega

theorem atoiFrom_append (k n : Nat) (t : Text) :
    atoiFrom k (decimal n ++ t) = atoiFrom (k * 10 ^ (decimal n).length + n) t := by
  induction n using decimal.induct generalizing k t with
  | case1 n h =>
    rw [decimal, if_pos h, List.singleton_append, atoiFrom, if_pos (by rw [digit_nat _ h]; omega), digit_nat _ h]
    congr 1
    simp
  | case2 n h ih =>
    rw [decimal, if_neg h, List.append_assoc, ih, List.singleton_append, atoiFrom,
      if_pos (by rw [digit_nat _ (by omega)]; omega), digit_nat _ (by omega)]
    congr 1
    rw [List.length_append, List.length_singleton, Nat.pow_succ]
    have : n / 10 * 10 + n % 10 = n := by omega
    rw [Nat.add_mul, Nat.mul_assoc]
    omega

/-- C122: the name of a type leads back to the type, and the packed value holds depth and channels. -/
theorem C122_type (depth channel : Nat) (hd : depth ≤ 10) (h1 : 1 ≤ channel) (h2 : channel ≤ 32768) :
    typeOf (typeStr (pack depth channel)) = some (pack depth channel) ∧ maskDepth (pack depth channel) = depth ∧
      maskChannel (pack depth channel) = channel := by
  have e1 := pack_depth depth channel (by omega)
  have e2 := pack_channel depth channel (by omega) h1 h2
  refine ⟨?_, e1, e2⟩
  rw [typeStr, e1, e2]
  have hn : 'C' ∉ depthStr depth := by
    have : ∀ d : Fin 11, 'C' ∉ depthStr d.1 := by decide
    exact this ⟨depth, by omega⟩
  have hback : depthOf (depthStr depth) = depth := by
    have : ∀ d : Fin 11, depthOf (depthStr d.1) = d.1 := by decide
    exact this ⟨depth, by omega⟩
  have hc : 'C' ∉ decimal channel := by
    intro h
    have := decimal_digits channel 'C' h
    revert this; decide
  have hp : Pieces ['C'] [depthStr depth, decimal channel] (depthStr depth ++ ['C'] ++ decimal channel) := by
    refine Pieces.next _ _ _ ?_ (Pieces.last _ ?_)
    · intro pre suf e
      by_contra hl
      apply hn
      have : (depthStr depth ++ ['C'] ++ decimal channel)[pre.length]? = some 'C' := by
        rw [e, List.append_assoc, List.getElem?_append_right (le_refl _)]
        simp
      rw [List.append_assoc, List.getElem?_append_left (by omega)] at this
      exact List.mem_of_getElem? this
    · rintro ⟨pre, suf, e⟩
      apply hc
      rw [e]; simp
  rw [show depthStr depth ++ ['C'] ++ decimal channel = depthStr depth ++ 'C' :: decimal channel by simp] at hp
  obtain ⟨ps, e, hps⟩ := (C116_split_partial (depthStr depth ++ 'C' :: decimal channel) 'C').1 (by simp)
  rw [pieces_unique hps hp] at e
  rw [typeOf, e]
  simp only
  have := atoiFrom_append 0 channel []
  rw [List.append_nil, Nat.zero_mul, Nat.zero_add] at this
  rw [this, hback, atoiFrom]

example : typeStr (pack 8 12) = ['m', 't', '_', 'F', '3', '2', 'C', '1', '2'] := by
  simp [typeStr, pack, maskDepth, maskChannel, depthStr, decimal]

/-- The property: as many results as there are places of the kernel, at multiples of the stride from the first one, in a row of
as many places as the boundary type has. -/
def ConvRight : Prop :=
  ∀ (src kernel stride : Int) (b : Boundary), 1 ≤ src → 1 ≤ kernel → 1 ≤ stride → ∀ k : Int,
    (0 ≤ k ∧ k < convSize src kernel stride b ↔ 0 ≤ k ∧ k * stride < (match b with
      | .full => src + kernel - 1
      | .same => src
      | .valid => src - kernel + 1))

theorem div_places (n stride k : Int) (hs : 1 ≤ stride) (hn : 1 ≤ n) :
    k < (n - 1).tdiv stride + 1 ↔ k * stride < n := by
  rw [Int.tdiv_eq_ediv_of_nonneg (by omega)]
  constructor
  · intro h
    have := (Int.le_ediv_iff_mul_le (by omega : 0 < stride)).1 (show k ≤ (n - 1) / stride by omega)
    omega
  · intro h
    have := (Int.le_ediv_iff_mul_le (by omega : 0 < stride)).2 (show k * stride ≤ n - 1 by omega)
    omega

/-- C123: when at least one place exists. -/
theorem C123_conv_partial (src kernel stride : Int) (b : Boundary) (h1 : 1 ≤ src) (h2 : 1 ≤ kernel) (hs : 1 ≤ stride)
    (hv : b = .valid → kernel ≤ src) (k : Int) :
    (0 ≤ k ∧ k < convSize src kernel stride b ↔ 0 ≤ k ∧ k * stride < (match b with
      | .full => src + kernel - 1
      | .same => src
      | .valid => src - kernel + 1)) := by
  cases b with
  | valid =>
    have := hv rfl
    exact and_congr_right fun _ => div_places (src - kernel + 1) _ _ hs (by omega)
  | full => exact and_congr_right fun _ => div_places (src + kernel - 1) _ _ hs (by omega)
  | same => exact and_congr_right fun _ => div_places src _ _ hs (by omega)

example : convSize 7 3 2 .valid = 3 ∧ convSize 7 3 2 .full = 5 ∧ convSize 7 3 2 .same = 4 := by decide

/-- A kernel that is larger than the source still has one place when the stride is above 1. -/
theorem not_C123_conv : ¬ ConvRight := by
  intro h
  have := h 2 3 2 .valid (by decide) (by decide) (by decide) 0
  revert this
  decide

/-- What the number of windows must be: each starts in the source, they cover it if they are not apart, and none but the last
reaches its end. -/
def Windows (src kernel stride r : Int) : Prop :=
  (∀ k, 0 ≤ k → k < r → k * stride < src) ∧ (∀ k, 0 ≤ k → k < r - 1 → k * stride + kernel < src) ∧
    (stride ≤ kernel → ∀ x, 0 ≤ x → x < src → ∃ k, 0 ≤ k ∧ k < r ∧ k * stride ≤ x ∧ x < k * stride + kernel) ∧
    (1 ≤ r ∧ src ≤ (r - 1) * stride + kernel ∨ src ≤ r * stride)

theorem place_below (stride x : Int) (hs : 1 ≤ stride) (hx : 0 ≤ x) :
    0 ≤ x / stride ∧ x / stride * stride ≤ x ∧ x < x / stride * stride + stride := by
  have := Int.mul_ediv_add_emod x stride
  have h1 := Int.emod_nonneg x (by omega : stride ≠ 0)
  have h2 := Int.emod_lt_of_pos x (by omega : 0 < stride)
  rw [Int.mul_comm] at this
  exact ⟨Int.ediv_nonneg hx (by omega), by omega, by omega⟩

theorem poolLoop_spec (src kernel stride : Int) (hs : 1 ≤ stride) (f : Nat) (res : Int) (h0 : 0 ≤ res) (hf0 : 1 ≤ f)
    (hf : src < f + res * stride) (h1 : ∀ k, 0 ≤ k → k < res → k * stride + kernel < src ∧ k * stride < src) :
    ∃ r, poolLoop src kernel stride f res (res * stride) = some r ∧ Windows src kernel stride r ∧ 0 ≤ r := by
  induction f generalizing res with
  | zero => omega
  | succ f ih =>
    have lt_res : ∀ x, 0 ≤ x → x < res * stride → x / stride < res := by
      intro x hx h
      exact Int.ediv_lt_of_lt_mul (by omega) h
    rw [poolLoop]
    split
    · rename_i hp
      refine ⟨res, rfl, ⟨fun k a b => (h1 k a b).2, fun k a b => (h1 k a (by omega)).1, fun hk x x0 x1 => ?_, Or.inr hp⟩, h0⟩
      obtain ⟨p1, p2, p3⟩ := place_below stride x hs x0
      exact ⟨x / stride, p1, lt_res x x0 (by omega), p2, by omega⟩
    · rename_i hp
      split
      · rename_i hq
        refine ⟨res + 1, rfl, ⟨?_, fun k a b => (h1 k a (by omega)).1, fun hk x x0 x1 => ?_, Or.inl ⟨by omega, ?_⟩⟩, by omega⟩
        · intro k a b
          by_cases hk : k < res
          · exact (h1 k a hk).2
          · obtain rfl : k = res := by omega
            omega
        · by_cases hx : x < res * stride
          · obtain ⟨p1, p2, p3⟩ := place_below stride x hs x0
            have := lt_res x x0 hx
            exact ⟨x / stride, p1, by omega, p2, by omega⟩
          · exact ⟨res, h0, by omega, by omega, by omega⟩
        · rw [show res + 1 - 1 = res by omega]; omega
      · rename_i hq
        have e : (res + 1) * stride = res * stride + stride := by ring
        rw [← e]
        refine ih (res + 1) (by omega) (by omega) (by push_cast at hf; omega) ?_
        intro k a b
        by_cases hk : k < res
        · exact h1 k a hk
        · obtain rfl : k = res := by omega
          exact ⟨by omega, by omega⟩

/-- C124: `get_pooling_result_size` ends and gives the number of windows. -/
theorem C124_pool (src kernel stride : Int) (h : 0 ≤ src) (hs : 1 ≤ stride) :
    ∃ r, poolSize (src.toNat + 1) src kernel stride = some r ∧ Windows src kernel stride r ∧ 0 ≤ r := by
  have := poolLoop_spec src kernel stride hs (src.toNat + 1) 0 (le_refl _) (by omega) (by push_cast; omega) (by omega)
  rwa [Int.zero_mul] at this

/-- The number is determined by that. -/
theorem C124_unique (src kernel stride r r' : Int) (h0 : 0 ≤ r) (h0' : 0 ≤ r')
    (h : Windows src kernel stride r) (h' : Windows src kernel stride r') : r = r' := by
  have key : ∀ a b : Int, 0 ≤ a → Windows src kernel stride a → Windows src kernel stride b → ¬ a < b := by
    intro a b ha wa wb hab
    have h1 := wb.1 a ha hab
    rcases wa.2.2.2 with h | h
    · have := wb.2.1 (a - 1) (by omega) (by omega)
      omega
    · omega
  rcases Int.lt_trichotomy r r' with h1 | h1 | h1
  · exact absurd h1 (key r r' h0 h h')
  · exact h1
  · exact absurd h1 (key r' r h0' h' h)

example : poolSize 8 7 3 2 = some 3 ∧ poolSize 8 7 3 3 = some 3 ∧ poolSize 3 2 5 1 = some 1 := by decide

end Verif.Props
