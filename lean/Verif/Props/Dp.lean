import Verif.Proof.Dp

/-!
# Properties C41, C42, C43, C49, C50: dynamic programming helpers
-/

namespace Verif.Props

open Verif.Spec Verif.Dp

/-- **C41** The reported maximum is the sum of the reported run, which is not empty and lies in the list, and no run
has a larger sum. -/
theorem C41_max_sum {n : Nat} (hn : 0 < n) (v : Nat → Int) :
    ∃ s, maxSum n v = some s ∧ 1 ≤ s.len ∧ s.begin + s.len ≤ n ∧ s.maxSum = runSum v s.begin s.len ∧
      ∀ b l, 1 ≤ l → b + l ≤ n → runSum v b l ≤ s.maxSum := by
  obtain ⟨s, e, h⟩ := maxSum_ok hn v
  exact ⟨s, e, h.pos, h.le, h.sum, h.best⟩

/-- A vector of integers given by its elements. -/
def ivec (l : List Int) (i : Nat) : Int := l.getD i 0

example : (maxSum 6 (ivec [-2, 3, -1, 4, -6, 5])).map (fun s => (s.maxSum, s.begin, s.len)) = some (6, 1, 3) := by decide

variable {T : Type} [DecidableEq T]

/-- **C42** (what holds) All accesses are inside the vectors and the matrix; a reported run is a common run; no common
run of two or more elements is longer than the reported length, and neither is one of a single element unless it is at
the start of the second list. -/
theorem C42_longer_partial {na nb : Nat} (hb : 0 < nb) (a b : Nat → T) :
    ∃ s, lcs na nb a b = some s ∧
      ((s.len = 0 ∧ s.aBegin = -1 ∧ s.bBegin = -1) ∨
        ∃ i j : Nat, s.aBegin = i ∧ s.bBegin = j ∧ 1 ≤ s.len ∧ CommonRun na nb a b i j s.len) ∧
      ∀ i j len, CommonRun na nb a b i j len → (2 ≤ len ∨ 1 ≤ j) → len ≤ s.len := by
  obtain ⟨s, e, h⟩ := lcs_ok (na := na) hb a b
  refine ⟨s, e, ?_, ?_⟩
  · rcases h.found with h0 | ⟨x, y, hx, hy1, hy, el, hl, ea, eb⟩
    · exact .inl h0
    · have hs := suff_le a b x y
      have hc := suff_common a b x y
      rw [← el] at hs hc
      refine .inr ⟨x + 1 - s.len, y + 1 - s.len, by omega, by omega, hl, by omega, by omega, fun t ht => ?_⟩
      have := hc (s.len - 1 - t) (by omega)
      rw [show x + 1 - s.len + t = x - (s.len - 1 - t) by omega, show y + 1 - s.len + t = y - (s.len - 1 - t) by omega]
      exact this
  · rintro i j len ⟨h1, h2, h3⟩ hor
    rcases Nat.eq_zero_or_pos len with h0 | h0
    · omega
    · have hs := suff_best a b (i + len - 1) (j + len - 1) len (by omega) (by omega) (fun t ht => by
        have := h3 (len - 1 - t) (by omega)
        rw [show i + len - 1 - t = i + (len - 1 - t) by omega, show j + len - 1 - t = j + (len - 1 - t) by omega]
        exact this)
      exact Nat.le_trans hs (h.best (i + len - 1) (j + len - 1) (by omega) (by omega) (by omega) (by omega))

/-- **C42** (violated) The lists `[7]` and `[7]` are reported to have nothing in common. -/
theorem C42_false : ∃ s, lcs 1 1 (ivec [7]) (ivec [7]) = some s ∧ s.len = 0 ∧ CommonRun 1 1 (ivec [7]) (ivec [7]) 0 0 1 :=
  ⟨_, rfl, rfl, by decide, by decide, fun t ht => by rfl⟩

/-- **C42** (violated for any second list of one element) -/
theorem C42_single_wrong (na : Nat) (a b : Nat → T) : ∃ s, lcs na 1 a b = some s ∧ s.len = 0 := by
  obtain ⟨s, e, h⟩ := lcs_ok (na := na) Nat.one_pos a b
  refine ⟨s, e, ?_⟩
  rcases h.found with h0 | ⟨x, y, hx, hy1, hy, _⟩
  · exact h0.1
  · omega

example : (lcs 5 4 (ivec [1, 2, 3, 4, 5]) (ivec [9, 2, 3, 4])).map (fun s => (s.len, s.aBegin, s.bBegin)) = some (3, 1, 1) := by decide

/-- **C50** (violated) For the lists `[1, 2]` and `[1, 2]` the only longest run begins at 0; reported is 1, its end. -/
theorem C50_false : ∃ s, lcs 2 2 (ivec [1, 2]) (ivec [1, 2]) = some s ∧ s.allA 2 2 = [1] ∧
    CommonRun 2 2 (ivec [1, 2]) (ivec [1, 2]) 0 0 s.len ∧ ¬ ∃ j, CommonRun 2 2 (ivec [1, 2]) (ivec [1, 2]) 1 j s.len := by
  refine ⟨_, rfl, by decide, ⟨by decide, by decide, fun t ht => rfl⟩, ?_⟩
  rintro ⟨j, h, _⟩
  exact absurd h (by decide)

/-- **C50** (what holds) If the reported length is positive, each reported index is where the last element of a longest
common run lies, and all such places in the first list are reported. -/
theorem C50_ends_partial {na nb : Nat} (hb : 0 < nb) (a b : Nat → T) :
    ∃ s, lcs na nb a b = some s ∧ (1 ≤ s.len →
      ∀ e, e ∈ s.allA na nb ↔ ∃ i j, i + s.len = e + 1 ∧ CommonRun na nb a b i j s.len) := by
  obtain ⟨s, es, h⟩ := lcs_ok (na := na) hb a b
  refine ⟨s, es, fun hpos e => ?_⟩
  have hmax : ∀ x y, x < na → y < nb → suff a b x y ≤ s.len := by
    intro x y hx hy
    by_cases hy0 : y = 0
    · have := (suff_le a b x y).2
      omega
    · exact h.best x y hx (by omega) hy (.inl hx)
  simp only [Lcs.allA, List.mem_map, List.mem_filter, List.mem_range, decide_eq_true_eq]
  constructor
  · rintro ⟨c, ⟨hc, ec⟩, rfl⟩
    have hna : 0 < na := Nat.pos_of_ne_zero (fun h0 => by rw [h0, Nat.zero_mul] at hc; omega)
    have hx : c % na < na := Nat.mod_lt _ hna
    have hy : c / na < nb := Nat.div_lt_of_lt_mul hc
    have hcell := h.cell (c % na) (c / na) hx hy (.inl hx)
    rw [Nat.mul_comm, Nat.div_add_mod, ec] at hcell
    have hs := suff_le a b (c % na) (c / na)
    have hcm := suff_common a b (c % na) (c / na)
    rw [← hcell] at hs hcm
    refine ⟨c % na + 1 - s.len, c / na + 1 - s.len, by omega, by omega, by omega, fun t ht => ?_⟩
    have := hcm (s.len - 1 - t) (by omega)
    rw [show c % na + 1 - s.len + t = c % na - (s.len - 1 - t) by omega,
      show c / na + 1 - s.len + t = c / na - (s.len - 1 - t) by omega]
    exact this
  · rintro ⟨i, j, he, h1, h2, h3⟩
    have hx : e < na := by omega
    have hy : j + s.len - 1 < nb := by omega
    refine ⟨(j + s.len - 1) * na + e, ⟨flat_lt hx hy, ?_⟩, ?_⟩
    · rw [h.cell e _ hx hy (.inl hx)]
      refine Nat.le_antisymm (hmax _ _ hx hy) ?_
      refine suff_best a b e (j + s.len - 1) s.len (by omega) (by omega) (fun t ht => ?_)
      have := h3 (s.len - 1 - t) (by omega)
      rw [show e - t = i + (s.len - 1 - t) by omega, show j + s.len - 1 - t = j + (s.len - 1 - t) by omega]
      exact this
    · rw [Nat.mul_comm, Nat.mul_add_mod, Nat.mod_eq_of_lt hx]


theorem knapsack_all {n : Nat} {ws vs : Nat → Int} {limit : Int} (hw : ∀ i, i < n → 0 ≤ ws i) (hl : 0 ≤ limit) :
    ∃ V fl, bag n ws vs limit = some (V, fl) ∧ IsBest n ws vs limit V ∧ ∀ i, fl i = true → i < n := by
  obtain ⟨V, cs, e, hb, hc⟩ := bagValue_ok (vs := vs) hw n limit [] (Nat.le_refl n) hl (fun c hc => by cases hc)
  obtain ⟨fl, ef, hf⟩ := bagFlags_total hc n V (fun _ => false) (fun i hi => by cases hi)
  refine ⟨V, fl, ?_, hb, hf⟩
  have h0 : (List.range n).all (fun i => decide (ws i ≥ 0)) = true := by
    rw [List.all_eq_true]
    intro i hi
    exact decide_eq_true (hw i (List.mem_range.1 hi))
  rw [bag, if_pos h0, e]
  simp only [Option.bind_some]
  rw [ef]
  rfl

/-- **C43** The knapsack solver reports the largest total value of a choice of items that is not too heavy. -/
theorem C43_knapsack {n : Nat} {ws vs : Nat → Int} {limit : Int} (hw : ∀ i, i < n → 0 ≤ ws i) (hl : 0 ≤ limit) :
    ∃ V fl, bag n ws vs limit = some (V, fl) ∧ IsBest n ws vs limit V := by
  obtain ⟨V, fl, e, h, _⟩ := knapsack_all (vs := vs) hw hl
  exact ⟨V, fl, e, h⟩

example : (bag 3 (ivec [2, 3, 4]) (ivec [3, 4, 6]) 6).map Prod.fst = some 9 := by decide

/-- **C49** (violated) One item of weight 1 and value 5, and the limit 0: the item is flagged although it does not fit
and the maximum value is 0. -/
theorem C49_false : ∃ fl, bag 1 (ivec [1]) (ivec [5]) 0 = some (0, fl) ∧ fl 0 = true ∧
    chosen 1 (ivec [1]) fl > 0 ∧ chosen 1 (ivec [5]) fl ≠ 0 := ⟨_, rfl, rfl, by decide, by decide⟩

/-- **C49** (violated, also when everything fits) Two items of weight 1, values 1 and 0, limit 1: the flagged items weigh
2. -/
theorem C49_false_fitting : ∃ fl, bag 2 (ivec [1, 1]) (ivec [1, 0]) 1 = some (1, fl) ∧ chosen 2 (ivec [1, 1]) fl > 1 :=
  ⟨_, rfl, by decide⟩

/-- **C49** (what holds) Computing the flags makes no access out of range, and only items are flagged. -/
theorem C49_in_range_partial {n : Nat} {ws vs : Nat → Int} {limit : Int} (hw : ∀ i, i < n → 0 ≤ ws i) (hl : 0 ≤ limit) :
    ∃ V fl, bag n ws vs limit = some (V, fl) ∧ ∀ i, fl i = true → i < n := by
  obtain ⟨V, fl, e, _, h⟩ := knapsack_all (vs := vs) hw hl
  exact ⟨V, fl, e, h⟩

end Verif.Props
