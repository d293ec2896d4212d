import Verif.Model.SplitMean
import Verif.Spec.SplitMean
import Mathlib.Tactic.Linarith
import Mathlib.Tactic.Ring
import Mathlib.Tactic.FieldSimp
import Mathlib.Tactic.Push
import Mathlib.Algebra.Order.Field.Basic
import Mathlib.Algebra.Order.BigOperators.Group.List

/-!
# C169: splitting numbers into two parts
-/

namespace Verif.SplitMean

open Verif.Spec

/-- The first numbers of a sorted list have the smallest sum. -/
theorem take_sum_le {x l : List Int} (h : x.Sublist l) : l.Pairwise (· ≤ ·) → (l.take x.length).sum ≤ x.sum := by
  induction h with
  | slnil => simp
  | @cons x l a h ih =>
    intro hs
    rw [List.pairwise_cons] at hs
    have ih := ih hs.2
    cases x with
    | nil => simp
    | cons y x =>
      have hl := h.length_le
      simp only [List.length_cons] at ih hl ⊢
      rw [List.sum_take_succ _ _ (by omega)] at ih
      rw [List.take_succ_cons, List.sum_cons]
      have := hs.1 _ (List.getElem_mem (l := l) (n := x.length) (by omega))
      omega
  | @cons_cons x l a h ih =>
    intro hs
    rw [List.pairwise_cons] at hs
    have ih := ih hs.2
    simp only [List.length_cons, List.take_succ_cons, List.sum_cons]
    omega

/-- A split of sorted numbers at a place is the best one with parts of these sizes. -/
theorem split_le {d a b : List Int} (hs : d.Pairwise (· ≤ ·)) (h : IsSplit d a b) :
    0 < b.length ∧ b.length < d.length ∧ meanDifference a b ≤ meanDifference (d.drop b.length) (d.take b.length) := by
  obtain ⟨ha, hb, hp⟩ := h
  have hlen := hp.length_eq
  rw [List.length_append] at hlen
  have hap : 0 < a.length := List.length_pos_iff.2 ha
  have hbp : 0 < b.length := List.length_pos_iff.2 hb
  have hsum := hp.sum_eq
  rw [List.sum_append] at hsum
  have hsub : (b.insertionSort (· ≤ ·)).Sublist d := by
    apply List.sublist_of_subperm_of_pairwise _ (List.pairwise_insertionSort _ _) hs
    exact (List.perm_insertionSort (· ≤ ·) b).subperm.trans ((List.sublist_append_left b a).subperm.trans hp.subperm)
  have ht := take_sum_le hsub hs
  rw [List.length_insertionSort, (List.perm_insertionSort _ b).sum_eq] at ht
  have hd : (d.take b.length).sum + (d.drop b.length).sum = d.sum := List.sum_take_add_sum_drop _ _
  refine ⟨hbp, by omega, ?_⟩
  unfold meanDifference
  rw [List.length_drop, List.length_take, show min b.length d.length = b.length by omega, show d.length - b.length = a.length by omega]
  have h1 : (0 : ℚ) < a.length := by exact_mod_cast hap
  have h2 : (0 : ℚ) < b.length := by exact_mod_cast hbp
  have h3 : ((d.take b.length).sum : ℚ) ≤ b.sum := by exact_mod_cast ht
  have h4 : (a.sum : ℚ) ≤ (d.drop b.length).sum := by
    have : a.sum ≤ (d.drop b.length).sum := by omega
    exact_mod_cast this
  have := div_le_div_of_nonneg_right h3 h2.le
  have := div_le_div_of_nonneg_right h4 h1.le
  linarith

theorem foldl_better (d : List Int) : ∀ n : Nat, 0 < n → ∃ k < n, (List.range n).foldl (better d) none = some k ∧
    ∀ j < n, difference d j ≤ difference d k
  | 0, h => by omega
  | 1, _ => ⟨0, by omega, rfl, fun j hj => by rw [show j = 0 by omega]⟩
  | n + 2, _ => by
    obtain ⟨k, h1, h2, h3⟩ := foldl_better d (n + 1) (by omega)
    rw [List.range_succ, List.foldl_append, h2]
    simp only [List.foldl_cons, List.foldl_nil, better]
    by_cases hc : difference d (n + 1) > difference d k
    · rw [if_pos hc]
      refine ⟨n + 1, by omega, rfl, fun j hj => ?_⟩
      rcases Nat.lt_or_ge j (n + 1) with h | h
      · exact le_trans (h3 j h) hc.le
      · rw [show j = n + 1 by omega]
    · rw [if_neg hc]
      refine ⟨k, by omega, rfl, fun j hj => ?_⟩
      rcases Nat.lt_or_ge j (n + 1) with h | h
      · exact h3 j h
      · rw [show j = n + 1 by omega]; exact not_lt.1 hc

/-- The error of the quotient. -/
theorem tdiv_error (x : Int) (n : Nat) (hn : 0 < n) : (x : ℚ) / n - 1 < (x.tdiv n : ℚ) ∧ (x.tdiv n : ℚ) < (x : ℚ) / n + 1 ∧
    (0 ≤ x → (x.tdiv n : ℚ) ≤ (x : ℚ) / n) ∧ ((n : Int) ∣ x → (x.tdiv n : ℚ) = (x : ℚ) / n) := by
  have hq : (0 : ℚ) < n := by exact_mod_cast hn
  have h := Int.mul_tdiv_add_tmod x n
  have hr' : -(n : Int) < x.tmod n ∧ x.tmod n < n := ⟨Int.lt_tmod_of_pos _ (by omega), Int.tmod_lt_of_pos _ (by omega)⟩
  have hx : (x : ℚ) = n * (x.tdiv n : ℚ) + (x.tmod n : ℚ) := by exact_mod_cast h.symm
  have e : (x : ℚ) / n = (x.tdiv n : ℚ) + (x.tmod n : ℚ) / n := by rw [hx]; field_simp
  have h1 : (x.tmod n : ℚ) / n < 1 := by rw [div_lt_one hq]; exact_mod_cast hr'.2
  have h2 : -1 < (x.tmod n : ℚ) / n := by
    rw [lt_div_iff₀ hq]
    have : (-(n : Int) : Int) < x.tmod n := hr'.1
    have : ((-(n : Int) : Int) : ℚ) < (x.tmod n : ℚ) := by exact_mod_cast this
    push_cast at this
    linarith
  refine ⟨by rw [e]; linarith, by rw [e]; linarith, fun h0 => ?_, fun hd => ?_⟩
  · have : 0 ≤ x.tmod n := Int.tmod_nonneg _ h0
    have : (0 : ℚ) ≤ (x.tmod n : ℚ) := by exact_mod_cast this
    have := div_nonneg this hq.le
    rw [e]; linarith
  · have : x.tmod n = 0 := Int.tmod_eq_zero_of_dvd hd
    rw [e, this]; simp

theorem difference_eq {d : List Int} {i : Nat} (hi : i + 1 < d.length) :
    meanDifference (d.drop (i + 1)) (d.take (i + 1)) - difference d i =
      ((d.drop (i + 1)).sum : ℚ) / ((d.drop (i + 1)).length : Nat) - (rightMean d (i + 1) : ℚ) := by
  unfold meanDifference difference
  rw [List.length_take, show min (i + 1) d.length = i + 1 by omega]
  ring

/-- The split that is found, with errors at most `l` below and `u` above. -/
theorem split_spec {input : List Int} (hl : 2 ≤ input.length) {a b : List Int} (h : split [] [] input = some (a, b)) :
    ∃ k, k + 1 < input.length ∧ a = (input.insertionSort (· ≤ ·)).drop (k + 1) ∧ b = (input.insertionSort (· ≤ ·)).take (k + 1) ∧
    IsSplit input a b ∧ ∀ l u : ℚ, (∀ i, i + 1 < input.length →
        let e := meanDifference ((input.insertionSort (· ≤ ·)).drop (i + 1)) ((input.insertionSort (· ≤ ·)).take (i + 1)) -
          difference (input.insertionSort (· ≤ ·)) i
        e ≤ l ∧ -u ≤ e) → ∀ a' b', IsSplit input a' b' → meanDifference a' b' ≤ meanDifference a b + l + u := by
  have hne : input ≠ [] := by rintro rfl; simp at hl
  unfold split at h
  rw [if_neg hne] at h
  dsimp only at h
  have hperm := List.perm_insertionSort (· ≤ ·) input
  have hlen := hperm.length_eq
  have hsort : (input.insertionSort (· ≤ ·)).Pairwise (· ≤ ·) := List.pairwise_insertionSort _ _
  generalize hd : input.insertionSort (· ≤ ·) = d at *
  split at h
  · obtain ⟨k, h1, h2, h3⟩ := foldl_better d (d.length - 1) (by omega)
    have hs : splitIndex d = some k := h2
    rw [hs] at h
    simp only [List.nil_append, Option.some.injEq, Prod.mk.injEq] at h
    obtain ⟨rfl, rfl⟩ := h
    refine ⟨k, by omega, rfl, rfl, ⟨?_, ?_, ?_⟩, ?_⟩
    · intro h; have := congrArg List.length h; simp only [List.length_drop, List.length_take, List.length_nil] at this; omega
    · intro h; have := congrArg List.length h; simp only [List.length_drop, List.length_take, List.length_nil] at this; omega
    · rw [List.take_append_drop]; exact hperm
    · intro l u he a' b' hs'
      obtain ⟨g1, g2, g3⟩ := split_le hsort (⟨hs'.1, hs'.2.1, hs'.2.2.trans hperm.symm⟩ : IsSplit d a' b')
      obtain ⟨j, hj⟩ : ∃ j, b'.length = j + 1 := ⟨b'.length - 1, by omega⟩
      rw [hj] at g2 g3
      have e1 := (he j (by omega)).1
      have e2 := (he k (by omega)).2
      have e3 := h3 j (by omega)
      linarith
  · cases h

end Verif.SplitMean

namespace Verif.Props

open Verif.SplitMean Verif.Spec

/-- **C169**, when the sums fit into `i32` and the mean of every set of largest numbers is whole, for empty outputs.  The numbers are split into two
parts, and no other split has a larger difference of means. -/
theorem C169_split_partial {input a b : List Int} (hl : 2 ≤ input.length) (h : split [] [] input = some (a, b))
    (hw : ∀ i, i < input.length →
      (((input.insertionSort (· ≤ ·)).drop i).length : Int) ∣ ((input.insertionSort (· ≤ ·)).drop i).sum) :
    IsSplit input a b ∧ ∀ a' b', IsSplit input a' b' → meanDifference a' b' ≤ meanDifference a b := by
  obtain ⟨k, _, _, _, h1, h2⟩ := split_spec hl h
  refine ⟨h1, fun a' b' hs => ?_⟩
  have hlen := (List.perm_insertionSort (· ≤ ·) input).length_eq
  have := h2 0 0 (fun i hi => ?_) a' b' hs
  · linarith
  · dsimp only
    rw [difference_eq (by omega)]
    have := (tdiv_error ((input.insertionSort (· ≤ ·)).drop (i + 1)).sum ((input.insertionSort (· ≤ ·)).drop (i + 1)).length
      (by rw [List.length_drop]; omega)).2.2.2 (hw (i + 1) hi)
    rw [rightMean, this]
    simp

/-- **C169**, up to rounding, when the sums fit into `i32`, for empty outputs.  No split has a difference of means that is larger by 2; when the
numbers are not negative, none is larger by 1. -/
theorem C169_rounding_partial {input a b : List Int} (hl : 2 ≤ input.length) (h : split [] [] input = some (a, b)) :
    IsSplit input a b ∧ (∀ a' b', IsSplit input a' b' → meanDifference a' b' ≤ meanDifference a b + 2) ∧
    ((∀ x ∈ input, 0 ≤ x) → ∀ a' b', IsSplit input a' b' → meanDifference a' b' ≤ meanDifference a b + 1) := by
  obtain ⟨k, _, _, _, h1, h2⟩ := split_spec hl h
  have hlen := (List.perm_insertionSort (· ≤ ·) input).length_eq
  have he := fun (i : Nat) (hi : i + 1 < input.length) =>
    tdiv_error ((input.insertionSort (· ≤ ·)).drop (i + 1)).sum ((input.insertionSort (· ≤ ·)).drop (i + 1)).length
      (by rw [List.length_drop]; omega)
  refine ⟨h1, fun a' b' hs => ?_, fun hp a' b' hs => ?_⟩
  · have := h2 1 1 (fun i hi => ?_) a' b' hs
    · linarith
    · dsimp only
      rw [difference_eq (by omega), rightMean]
      constructor <;> linarith [(he i hi).1, (he i hi).2.1]
  · have := h2 1 0 (fun i hi => ?_) a' b' hs
    · linarith
    · dsimp only
      rw [difference_eq (by omega), rightMean]
      have h0 : 0 ≤ ((input.insertionSort (· ≤ ·)).drop (i + 1)).sum := by
        apply List.sum_nonneg
        intro x hx
        exact hp x ((List.perm_insertionSort (· ≤ ·) input).subset (List.mem_of_mem_drop hx))
      have h3 := (he i hi).2.2.1 h0
      constructor <;> linarith [(he i hi).1]

/-- The case of the test of the project. -/
example : split [] [] [1, 9, -100] = some ([1, 9], [-100]) ∧
    ∀ i, i < 3 → ((([1, 9, -100] : List Int).insertionSort (· ≤ ·)).drop i).length = 3 - i ∧
      ((3 - i : Nat) : Int) ∣ ((([1, 9, -100] : List Int).insertionSort (· ≤ ·)).drop i).sum := by decide +kernel

/-- **C169 is false** because of the whole right means: the split of 0, 0, 2, 3 has the difference 7/3, and another one has 5/2. -/
theorem not_C169_whole : split [] [] [0, 0, 2, 3] = some ([3], [0, 0, 2]) ∧ meanDifference [3] [0, 0, 2] = 7 / 3 ∧
    meanDifference [2, 3] [0, 0] = 5 / 2 := by decide +kernel

/-- **C169 is false** for a second part that is not empty before: it is not cleared. -/
theorem not_C169_cleared : split [] [7] [1, 2] = some ([2], [7, 1]) := by decide +kernel

end Verif.Props
