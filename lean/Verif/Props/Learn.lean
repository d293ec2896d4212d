import Verif.Model.Learn
import Mathlib.Algebra.Order.BigOperators.Group.List
import Mathlib.Tactic.Linarith
import Mathlib.Tactic.FieldSimp
import Mathlib.Tactic.Ring
import Mathlib.Tactic.Positivity

/-!
# C181–C183: softmax, quadratic loss, reduction of a line
-/

namespace Verif.Learn

open Verif.Spec

theorem foldl_add_eq {K : Type} [AddCommMonoid K] (l : List K) : ∀ a : K, l.foldl (· + ·) a = a + l.sum := by
  induction l with
  | nil => intro a; simp
  | cons x l ih => intro a; rw [List.foldl_cons, ih, List.sum_cons, add_assoc]

theorem maxLoop_spec (l : List ℝ) : ∀ x : ℝ, (maxLoop x l = x ∨ maxLoop x l ∈ l) ∧ x ≤ maxLoop x l ∧ ∀ v ∈ l, v ≤ maxLoop x l := by
  induction l with
  | nil => intro x; exact ⟨Or.inl rfl, le_refl _, by simp⟩
  | cons a l ih =>
    intro x
    have hm : maxLoop x (a :: l) = maxLoop (if a > x then a else x) l := by simp only [maxLoop, List.foldl_cons]
    rw [hm]
    obtain ⟨h1, h2, h3⟩ := ih (if a > x then a else x)
    have hx : x ≤ (if a > x then a else x) ∧ a ≤ (if a > x then a else x) := by split <;> constructor <;> linarith
    refine ⟨?_, hx.1.trans h2, fun v hv => ?_⟩
    · rcases h1 with h1 | h1
      · rw [h1]
        split
        · exact Or.inr List.mem_cons_self
        · exact Or.inl rfl
      · exact Or.inr (List.mem_cons_of_mem _ h1)
    · rcases List.mem_cons.1 hv with rfl | hv
      · exact hx.2.trans h2
      · exact h3 v hv

theorem sum_exp_shift (m : ℝ) (l : List ℝ) : (l.map fun v => Real.exp (v - m)).sum = (l.map Real.exp).sum / Real.exp m := by
  induction l with
  | nil => simp
  | cons x l ih => rw [List.map_cons, List.sum_cons, ih, List.map_cons, List.sum_cons, Real.exp_sub]; ring

theorem sum_div (s : ℝ) (l : List ℝ) : (l.map (· / s)).sum = l.sum / s := by
  induction l with
  | nil => simp
  | cons x l ih => simp only [List.map_cons, List.sum_cons, ih]; ring

theorem foldlM_none {K : Type} {f : K → Nat → Option K} {c : Nat} (hf : ∀ d, f d c = none) (l : List Nat) (hc : c ∈ l) : ∀ d, l.foldlM f d = none := by
  induction l with
  | nil => simp at hc
  | cons x l ih =>
    intro d
    rw [List.foldlM_cons]
    rcases List.mem_cons.1 hc with rfl | hc
    · rw [hf]; rfl
    · cases f d x with
      | none => rfl
      | some d' => exact ih hc d'

theorem quadElement_spec {n ch : Nat} (src : Nat → ℚ) (mat : Nat → Option ℚ) {e : Nat} (he : e < n) (dst : Nat → ℚ) :
    ∀ dims ≤ ch, ∃ out, quadElement dims n ch src mat dst e = some out ∧
      ∀ c, out c = dst c + if c < dims then halfSquare (src (e * ch + c)) (mat c) else 0 := by
  intro dims
  induction dims with
  | zero => intro _; exact ⟨dst, rfl, fun c => by simp⟩
  | succ k ih =>
    intro hk
    obtain ⟨out, h1, h2⟩ := ih (by omega)
    have hlt : e * ch + k < n * ch := by
      have : (e + 1) * ch ≤ n * ch := Nat.mul_le_mul_right _ he
      rw [Nat.add_mul] at this; omega
    have hk2 : k < n * ch := by omega
    unfold quadElement at h1 ⊢
    rw [List.range_succ, List.foldlM_append, h1]
    simp only [Option.bind_eq_bind, Option.bind_some, List.foldlM_cons, List.foldlM_nil]
    rw [quadChan, if_neg (by omega)]
    cases hm : mat k with
    | none =>
      refine ⟨out, rfl, fun c => ?_⟩
      rw [h2]
      by_cases h : c = k
      · subst h; simp [hm, halfSquare]
      · have : c < k + 1 ↔ c < k := by omega
        simp only [this]
    | some v =>
      simp only
      rw [if_neg (by omega)]
      refine ⟨_, rfl, fun c => ?_⟩
      by_cases h : c = k
      · subst h
        simp only [if_true, h2, lt_irrefl, if_false, Nat.lt_succ_self, hm, halfSquare]
        ring
      · have : c < k + 1 ↔ c < k := by omega
        simp only [if_neg h, h2, this]

/-- What the code computes when no access is outside. -/
theorem quadLoss_spec {dims n ch : Nat} (src : Nat → ℚ) (mat : Nat → Option ℚ) (init : Nat → ℚ) (hd : dims ≤ ch) :
    ∃ out, quadLoss dims n ch src mat init = some out ∧
      ∀ c, out c = init c + if c < dims then ((List.range n).map fun e => halfSquare (src (e * ch + c)) (mat c)).sum else 0 := by
  have : ∀ k ≤ n, ∃ out, (List.range k).foldlM (quadElement dims n ch src mat) init = some out ∧
      ∀ c, out c = init c + if c < dims then ((List.range k).map fun e => halfSquare (src (e * ch + c)) (mat c)).sum else 0 := by
    intro k
    induction k with
    | zero => intro _; exact ⟨init, rfl, fun c => by simp⟩
    | succ k ih =>
      intro hk
      obtain ⟨out, h1, h2⟩ := ih (by omega)
      obtain ⟨out', h3, h4⟩ := quadElement_spec (n := n) (ch := ch) src mat (by omega : k < n) out dims hd
      rw [List.range_succ, List.foldlM_append, h1]
      simp only [Option.bind_eq_bind, Option.bind_some, List.foldlM_cons, List.foldlM_nil]
      rw [h3]
      refine ⟨out', rfl, fun c => ?_⟩
      rw [h4, h2, List.map_append, List.sum_append]
      split
      · simp only [List.map_cons, List.map_nil, List.sum_cons, List.sum_nil]; ring
      · ring
  exact this n (le_refl _)

theorem best_fold {better : ℚ → ℚ → Prop} [DecidableRel better] (irr : ∀ a, ¬ better a a) (asym : ∀ a b, better a b → ¬ better b a)
    (tr : ∀ a b d, ¬ better b a → ¬ better d b → ¬ better d a) (l : List ℚ) :
    ∀ x, (l.foldl (fun m v => if better v m then v else m) x = x ∨ l.foldl (fun m v => if better v m then v else m) x ∈ l) ∧
      ¬ better x (l.foldl (fun m v => if better v m then v else m) x) ∧
      ∀ v ∈ l, ¬ better v (l.foldl (fun m v => if better v m then v else m) x) := by
  induction l with
  | nil => intro x; exact ⟨Or.inl rfl, irr _, by simp⟩
  | cons a l ih =>
    intro x
    rw [List.foldl_cons]
    obtain ⟨h1, h2, h3⟩ := ih (if better a x then a else x)
    have hx : ¬ better x (if better a x then a else x) ∧ ¬ better a (if better a x then a else x) := by
      split
      · rename_i h; exact ⟨asym _ _ h, irr _⟩
      · rename_i h; exact ⟨irr _, h⟩
    refine ⟨?_, tr _ _ _ h2 hx.1, fun v hv => ?_⟩
    · rcases h1 with h1 | h1
      · rw [h1]
        split
        · exact Or.inr List.mem_cons_self
        · exact Or.inl rfl
      · exact Or.inr (List.mem_cons_of_mem _ h1)
    · rcases List.mem_cons.1 hv with rfl | hv
      · exact tr _ _ _ h2 hx.2
      · exact h3 v hv

theorem foldl_square (m : ℚ) (l : List ℚ) : ∀ a, l.foldl (fun s v => s + (v - m) * (v - m)) a = a + (l.map fun v => (v - m) ^ 2).sum := by
  induction l with
  | nil => intro a; simp
  | cons x l ih => intro a; rw [List.foldl_cons, ih, List.map_cons, List.sum_cons]; ring

end Verif.Learn

namespace Verif.Props

open Verif.Learn Verif.Spec

/-- **C181.**  `softmax` gives for each row with elements the exponentials in relation to their sum; the results are positive with sum 1, no exponent is
above zero, and the divisor is at least 1 and at most the number of columns. -/
theorem C181_softmax {row : List ℝ} (h : row ≠ []) :
    ∃ out, softmax row = some out ∧ IsSoftmax row out ∧ out.sum = 1 ∧ (∀ y ∈ out, 0 < y) ∧
      (∀ y ∈ exps row, 0 < y ∧ y ≤ 1) ∧ 1 ∈ exps row ∧ 1 ≤ (exps row).sum ∧ (exps row).sum ≤ row.length := by
  cases row with
  | nil => exact absurd rfl h
  | cons x l =>
    obtain ⟨h1, h2, h3⟩ := maxLoop_spec l x
    have hle : ∀ v ∈ x :: l, v ≤ maxLoop x l := by
      intro v hv
      rcases List.mem_cons.1 hv with rfl | hv
      · exact h2
      · exact h3 v hv
    have hmem : maxLoop x l ∈ x :: l := by
      rcases h1 with h1 | h1
      · rw [h1]; exact List.mem_cons_self
      · exact List.mem_cons_of_mem _ h1
    have he : ∀ y ∈ exps (x :: l), 0 < y ∧ y ≤ 1 := by
      intro y hy
      simp only [exps, List.mem_map] at hy
      obtain ⟨v, hv, rfl⟩ := hy
      exact ⟨Real.exp_pos _, Real.exp_le_one_iff.2 (by linarith [hle v hv])⟩
    have hone : (1 : ℝ) ∈ exps (x :: l) := List.mem_map.2 ⟨_, hmem, by simp⟩
    have hs1 : 1 ≤ (exps (x :: l)).sum := List.single_le_sum (fun y hy => (he y hy).1.le) _ hone
    have hs2 : (exps (x :: l)).sum ≤ (x :: l).length := by
      have := List.sum_le_card_nsmul (exps (x :: l)) 1 fun y hy => (he y hy).2
      simpa [exps] using this
    have hs : (exps (x :: l)).foldl (· + ·) 0 = (exps (x :: l)).sum := by rw [foldl_add_eq, zero_add]
    have hsum : (exps (x :: l)).sum = ((x :: l).map Real.exp).sum / Real.exp (maxLoop x l) := sum_exp_shift _ _
    have hne : (exps (x :: l)).sum ≠ 0 := by linarith
    refine ⟨(exps (x :: l)).map (· / (exps (x :: l)).sum), by simp only [softmax, hs, if_neg hne], ⟨by simp [exps], fun i v hv => ?_⟩, ?_, ?_, he, hone, hs1, hs2⟩
    · simp only [List.getElem?_map]
      rw [show (exps (x :: l))[i]? = some (Real.exp (v - maxLoop x l)) by simp only [exps, List.getElem?_map, hv, Option.map_some]]
      rw [Option.map_some, hsum, Real.exp_sub, div_div_div_cancel_right₀ (Real.exp_ne_zero _)]
    · rw [sum_div, div_self hne]
    · intro y hy
      obtain ⟨z, hz, rfl⟩ := List.mem_map.1 hy
      exact div_pos (he z hz).1 (by linarith)

example : ([3, 1, 3] : List ℝ) ≠ [] := by simp

/-- **C182, part.**  `quardratic_loss` is right if there are as many dimensions as channels, the new array happens to hold zeros and all elements of the
matching array are equal. -/
theorem C182_quadratic_partial {n ch : Nat} (src : Nat → ℚ) (mat : Nat → Option ℚ) (hm : ∀ e < n, ∀ c < ch, mat (e * ch + c) = mat c) :
    ∃ out, quadLoss ch n ch src mat (fun _ => 0) = some out ∧ IsQuadraticLoss n ch src mat out := by
  obtain ⟨out, h1, h2⟩ := quadLoss_spec (n := n) src mat (fun _ => 0) (le_refl ch)
  refine ⟨out, h1, fun c hc => ?_⟩
  rw [h2, if_pos hc, zero_add]
  congr 1
  apply List.map_congr_left
  intro e he
  rw [hm e (List.mem_range.1 he) c hc]

example : (quadLoss 2 2 2 (fun i => (i : ℚ)) (fun i => some ((i % 2 : Nat) : ℚ)) fun _ => 0).map (fun f => [f 0, f 1]) = some [2, 2] := by
  decide +kernel

/-- **C182 is false.**  With more dimensions than channels, as for every matrix with one channel, an element outside of the result is written unless the
matching array has no number there. -/
theorem not_C182_bounds {dims n ch : Nat} (src : Nat → ℚ) (mat : Nat → Option ℚ) (init : Nat → ℚ) (hd : ch < dims) (hn : 0 < n) {v : ℚ}
    (hv : mat ch = some v) : quadLoss dims n ch src mat init = none := by
  refine foldlM_none (c := 0) (fun d => ?_) _ (List.mem_range.2 hn) init
  refine foldlM_none (c := ch) (fun d => ?_) _ (List.mem_range.2 hd) d
  unfold quadChan
  split
  · rfl
  · rw [hv]; simp

/-- **C182 is false** also without that: the first element of the matching array is used for all elements, and the result depends on what was in the
memory of the new array. -/
theorem not_C182_first :
    ∃ src mat, ∃ out, quadLoss 1 2 1 src mat (fun _ => 0) = some out ∧ ¬ IsQuadraticLoss 2 1 src mat out := by
  obtain ⟨out, h1, h2⟩ := quadLoss_spec (n := 2) (fun i => (i : ℚ)) (fun i => some (i : ℚ)) (fun _ => 0) (le_refl 1)
  refine ⟨_, _, out, h1, fun h => ?_⟩
  have h3 := h 0 (by omega)
  rw [h2] at h3
  revert h3
  decide +kernel

theorem not_C182_memory {n ch : Nat} (src : Nat → ℚ) (mat : Nat → Option ℚ) (init : Nat → ℚ) {c : Nat} (hc : c < ch) (hi : init c ≠ 0)
    (hm : ∀ e < n, ∀ c < ch, mat (e * ch + c) = mat c) : ∃ out, quadLoss ch n ch src mat init = some out ∧ ¬ IsQuadraticLoss n ch src mat out := by
  obtain ⟨out, h1, h2⟩ := quadLoss_spec (n := n) src mat init (le_refl ch)
  refine ⟨out, h1, fun h => hi ?_⟩
  have h3 := h c hc
  rw [h2, if_pos hc] at h3
  have : ((List.range n).map fun e => halfSquare (src (e * ch + c)) (mat c)) =
      (List.range n).map fun e => halfSquare (src (e * ch + c)) (mat (e * ch + c)) :=
    List.map_congr_left fun e he => by rw [hm e (List.mem_range.1 he) c hc]
  rw [this] at h3
  linarith

/-- **C183.**  `reduce` along a dimension gives for each line the sum, the mean, the largest and smallest value, the mean square of the distances from
the mean, and with at least two elements the unbiased variance. -/
theorem C183_reduce {l : List ℚ} (h : l ≠ []) :
    reduceLine .sum l = some l.sum ∧
    (∃ m, reduceLine .mean l = some m ∧ IsMean l m ∧
      (∃ v, reduceLine .variance l = some v ∧ IsMean (l.map fun x => (x - m) ^ 2) v ∧ 0 ≤ v) ∧
      (2 ≤ l.length → ∃ v, reduceLine .unbiased l = some v ∧ v * (l.length - 1) = (l.map fun x => (x - m) ^ 2).sum)) ∧
    (∃ m, reduceLine .max l = some m ∧ IsExtreme (· > ·) l m) ∧ ∃ m, reduceLine .min l = some m ∧ IsExtreme (· < ·) l m := by
  cases l with
  | nil => exact absurd rfl h
  | cons x t =>
    have hlen : ((x :: t).length : ℚ) ≠ 0 := by simp only [List.length_cons]; positivity
    have hsum : lineSum (x :: t) = (x :: t).sum := by rw [lineSum, foldl_add_eq, zero_add]
    refine ⟨by simp only [reduceLine, hsum], ⟨_, rfl, ?_, ⟨_, rfl, ?_, ?_⟩, fun h2 => ?_⟩, ⟨_, rfl, ?_⟩, ⟨_, rfl, ?_⟩⟩
    · rw [IsMean, hsum, div_mul_cancel₀ _ hlen]
    · rw [IsMean, foldl_square, zero_add, List.length_map, div_mul_cancel₀ _ hlen]
    · rw [foldl_square, zero_add]
      apply div_nonneg
      · apply List.sum_nonneg
        intro y hy
        obtain ⟨v, _, rfl⟩ := List.mem_map.1 hy
        positivity
      · positivity
    · have hl : (((x :: t).length : ℚ) - 1) ≠ 0 := by
        have : (2 : ℚ) ≤ ((x :: t).length : ℚ) := by exact_mod_cast h2
        linarith
      refine ⟨_, by simp only [reduceLine]; rw [if_neg (by omega)], ?_⟩
      rw [foldl_square, zero_add, div_mul_cancel₀ _ hl]
    · obtain ⟨h1, h2, h3⟩ := best_fold (better := fun a b : ℚ => a > b) (fun a => lt_irrefl a) (fun a b h => not_lt.2 (le_of_lt h))
        (fun a b d h h' => not_lt.2 ((not_lt.1 h').trans (not_lt.1 h))) (x :: t) x
      refine ⟨?_, h3⟩
      rcases h1 with h1 | h1
      · rw [h1]; exact List.mem_cons_self
      · exact h1
    · obtain ⟨h1, h2, h3⟩ := best_fold (better := fun a b : ℚ => a < b) (fun a => lt_irrefl a) (fun a b h => not_lt.2 (le_of_lt h))
        (fun a b d h h' => not_lt.2 ((not_lt.1 h).trans (not_lt.1 h'))) (x :: t) x
      refine ⟨?_, h3⟩
      rcases h1 with h1 | h1
      · rw [h1]; exact List.mem_cons_self
      · exact h1

example : reduceLine .variance [1, 2, 6] = some (14 / 3) ∧ reduceLine .unbiased [1, 2, 6] = some 7 ∧ reduceLine .max [1, 6, 2] = some 6 ∧
    reduceLine .min [2, 1, 6] = some 1 := by decide +kernel

end Verif.Props
