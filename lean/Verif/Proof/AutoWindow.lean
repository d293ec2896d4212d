import Verif.Model.AutoWindow
import Verif.Spec.Window
import Mathlib.Algebra.Order.BigOperators.Group.Finset
import Mathlib.Tactic.Abel

/-!
# The windows of the edge detector with automatic thresholds
-/

namespace Verif.AutoWindow

open Verif.Spec

/-- The sum over the first `r` rows and `c` columns. -/
def pre {R : Type} [AddCommGroup R] (g : Nat → Nat → R) (r c : Nat) : R := ∑ i ∈ Finset.range r, ∑ j ∈ Finset.range c, g i j

theorem pre_succ {R : Type} [AddCommGroup R] (g : Nat → Nat → R) (r c : Nat) : pre g (r + 1) c = pre g r c + ∑ j ∈ Finset.range c, g r j := by
  unfold pre
  rw [Finset.sum_range_succ]

theorem integral_spec {R : Type} [AddCommGroup R] (g : Nat → Nat → R) : ∀ r c, integral g r c = pre g (r + 1) (c + 1)
  | 0, c => by
    show firstRow g c = _
    rw [pre_succ]
    have : pre g 0 (c + 1) = 0 := by simp [pre]
    rw [this, zero_add]
    induction c with
    | zero => simp [firstRow]
    | succ c ih =>
      rw [firstRow, Finset.sum_range_succ, ← ih]
      simp [pre]
  | r + 1, c => by
    show nextRow g (r + 1) (integral g r) c = _
    induction c with
    | zero =>
      rw [nextRow, integral_spec g r 0, pre_succ g (r + 1)]
      simp
    | succ c ih =>
      rw [nextRow, ih, integral_spec g r (c + 1), integral_spec g r c, pre_succ g (r + 1), pre_succ g (r + 1), Finset.sum_range_succ _ (c + 1)]
      abel

theorem rect_pre {R : Type} [AddCommGroup R] (g : Nat → Nat → R) {a b c d : Nat} (h1 : a ≤ b + 1) (h2 : c ≤ d + 1) :
    rectSum g a b c d = pre g (b + 1) (d + 1) - pre g a (d + 1) - pre g (b + 1) c + pre g a c := by
  unfold rectSum
  have : ∀ i, ∑ j ∈ Finset.Ico c (d + 1), g i j = ∑ j ∈ Finset.range (d + 1), g i j - ∑ j ∈ Finset.range c, g i j :=
    fun i => Finset.sum_Ico_eq_sub _ h2
  rw [Finset.sum_congr rfl fun i _ => this i, Finset.sum_sub_distrib, Finset.sum_Ico_eq_sub _ h1, Finset.sum_Ico_eq_sub _ h1]
  unfold pre
  abel

theorem pre_zero {R : Type} [AddCommGroup R] (g : Nat → Nat → R) (c : Nat) : pre g 0 c = 0 := by simp [pre]

theorem pre_zero' {R : Type} [AddCommGroup R] (g : Nat → Nat → R) (r : Nat) : pre g r 0 = 0 := by simp [pre]

theorem element_spec {R : Type} [AddCommGroup R] {c : Cfg} (g : Nat → Nat → R) {r k : Nat} (hr : r ≤ c.rows) (hk : k ≤ c.cols) :
    element c (integral g) ((r : Int) - 1) ((k : Int) - 1) = some (pre g r k) := by
  unfold element
  rcases r with _ | r
  · rw [if_pos (Or.inl (by simp)), pre_zero]
  · rcases k with _ | k
    · rw [if_pos (Or.inr (by simp)), pre_zero']
    · rw [if_neg (by omega)]
      unfold look
      rw [if_pos (by omega), integral_spec]
      have e1 : (((r + 1 : Nat) : Int) - 1).toNat = r := by omega
      have e2 : (((k + 1 : Nat) : Int) - 1).toNat = k := by omega
      rw [e1, e2]

theorem value_spec {R : Type} [AddCommGroup R] {c : Cfg} (g : Nat → Nat → R) {a b p q : Nat} (h1 : a ≤ b + 1) (h2 : p ≤ q + 1) (h3 : b < c.rows)
    (h4 : q < c.cols) : value c (integral g) ((a : Int) - 1) ((p : Int) - 1) (b : Int) (q : Int) = some (rectSum g a b p q) := by
  have eb : (b : Int) = ((b + 1 : Nat) : Int) - 1 := by omega
  have eq : (q : Int) = ((q + 1 : Nat) : Int) - 1 := by omega
  unfold value
  have hl : look c (integral g) (b : Int) (q : Int) = some (pre g (b + 1) (q + 1)) := by
    unfold look
    rw [if_pos (by omega), integral_spec]
    rfl
  rw [hl, eb, eq, element_spec g (by omega) (by omega), element_spec g (by omega) (by omega), element_spec g (by omega) (by omega), rect_pre g h1 h2]
  rfl

/-- The conditions on the sizes. -/
structure Fit (c : Cfg) : Prop where
  four : 4 ≤ c.size
  rem : c.size % 4 ≤ c.size / 4

theorem Fit.nr {c : Cfg} (h : Fit c) : c.nr = c.rows / c.step := by
  unfold Cfg.nr
  have h1 : 0 < c.step := by unfold Cfg.step; have := h.four; omega
  have h2 : c.rows % c.step < c.step := Nat.mod_lt _ h1
  have h3 : c.step = c.size / 4 := rfl
  rw [if_neg (by omega), Nat.add_zero]

theorem Fit.nc {c : Cfg} (h : Fit c) : c.nc = c.cols / c.step := by
  unfold Cfg.nc
  have h1 : 0 < c.step := by unfold Cfg.step; have := h.four; omega
  have h2 : c.rows % c.step < c.step := Nat.mod_lt _ h1
  have h3 : c.step = c.size / 4 := rfl
  rw [if_neg (by omega), Nat.add_zero]

/-- A window is inside of the image. -/
theorem stop_lt {n t s k : Nat} (h4 : 4 ≤ s) (ht : t = s / 4) (hr : s % 4 ≤ t) (hk : k + 4 ≤ n / t) : t * k ≤ winStop n t s k + 1 ∧ winStop n t s k < n := by
  have h1 : t * (k + 4) ≤ n := le_trans (Nat.mul_le_mul_left t hk) (Nat.mul_div_le n t)
  rw [Nat.mul_add] at h1
  unfold winStop
  split
  · omega
  · rename_i hne
    have h2 : t * (k + 5) ≤ n := le_trans (Nat.mul_le_mul_left t (by omega)) (Nat.mul_div_le n t)
    rw [Nat.mul_add] at h2
    omega

theorem stop_eq {n t s k : Nat} (h4 : 4 ≤ s) (ht : t = s / 4) (hk : k + 4 ≤ n / t) :
    (if (k : Int) = ((n / t : Nat) : Int) - 4 then (n : Int) - 1 else ((t * k : Nat) : Int) + s - 1) = (winStop n t s k : Int) := by
  have h1 : t * (k + 4) ≤ n := le_trans (Nat.mul_le_mul_left t hk) (Nat.mul_div_le n t)
  rw [Nat.mul_add] at h1
  unfold winStop
  by_cases h : k + 4 = n / t
  · rw [if_pos (by omega), if_pos h]; omega
  · rw [if_neg (by omega), if_neg h]; omega

theorem window_spec {c : Cfg} (hF : Fit c) (s : Nat → Nat → Cell) {v : Nat × Nat} (h1 : v.1 + 4 ≤ c.rows / c.step) (h2 : v.2 + 4 ≤ c.cols / c.step) :
    window c s v = some (if 0 < winSum c.one c.rows c.cols c.step c.size v then
      fun i j => if coversCell i j v then
          { mean := ((s i j).mean * (s i j).count + winSum c.val c.rows c.cols c.step c.size v) /
              ((s i j).count + winSum c.one c.rows c.cols c.step c.size v : Int)
            count := (s i j).count + winSum c.one c.rows c.cols c.step c.size v
            flags := if c.dense ≤ winSum c.one c.rows c.cols c.step c.size v then ((s i j).flags + 1) % 256 else (s i j).flags }
        else s i j
      else s) := by
  have h4 := hF.four
  have hst : c.step = c.size / 4 := rfl
  have hpos : 0 < c.step := by omega
  obtain ⟨a1, a2⟩ := stop_lt h4 hst hF.rem h1
  obtain ⟨a3, a4⟩ := stop_lt h4 hst hF.rem h2
  unfold window
  rw [hF.nr, hF.nc]
  dsimp only
  rw [stop_eq h4 hst h1, stop_eq h4 hst h2, value_spec c.one a1 a3 a2 a4, Option.bind_some, value_spec c.val a1 a3 a2 a4, Option.bind_some]
  have e1 : min (((c.step * v.1 : Nat) : Int) / (c.step : Int)) (((c.rows / c.step : Nat) : Int) - 1) = (v.1 : Int) := by
    have : ((c.step * v.1 : Nat) : Int) / (c.step : Int) = (v.1 : Int) := by
      rw [← Int.natCast_ediv, Nat.mul_div_cancel_left _ hpos]
    rw [this]; omega
  have e2 : min (((c.step * v.2 : Nat) : Int) / (c.step : Int)) (((c.cols / c.step : Nat) : Int) - 1) = (v.2 : Int) := by
    have : ((c.step * v.2 : Nat) : Int) / (c.step : Int) = (v.2 : Int) := by
      rw [← Int.natCast_ediv, Nat.mul_div_cancel_left _ hpos]
    rw [this]; omega
  rw [e1, e2]
  rw [if_pos (c := 0 ≤ (v.1 : Int) ∧ _) (by omega)]
  unfold winSum
  split
  · congr 1
    funext i j
    by_cases hc : coversCell i j v
    · have hc' := hc
      unfold coversCell at hc'
      rw [if_pos hc, if_pos (by omega)]
    · have hc' := hc
      unfold coversCell at hc'
      rw [if_neg hc, if_neg (by omega)]
  · rfl

theorem one_nonneg (c : Cfg) (i j : Nat) : 0 ≤ c.one i j := by
  unfold Cfg.one
  split <;> decide

theorem win_nonneg (c : Cfg) (v : Nat × Nat) : 0 ≤ winSum c.one c.rows c.cols c.step c.size v := by
  unfold winSum rectSum
  exact Finset.sum_nonneg fun i _ => Finset.sum_nonneg fun j _ => one_nonneg c i j

/-- A window without edge pixels has the sum 0. -/
theorem win_zero (c : Cfg) (v : Nat × Nat) (h : winSum c.one c.rows c.cols c.step c.size v = 0) : winSum c.val c.rows c.cols c.step c.size v = 0 := by
  unfold winSum rectSum at h ⊢
  rw [Finset.sum_eq_zero_iff_of_nonneg (fun i _ => Finset.sum_nonneg fun j _ => one_nonneg c i j)] at h
  refine Finset.sum_eq_zero fun i hi => Finset.sum_eq_zero fun j hj => ?_
  have h1 := h i hi
  rw [Finset.sum_eq_zero_iff_of_nonneg (fun j _ => one_nonneg c i j)] at h1
  have h2 := h1 j hj
  unfold Cfg.one at h2
  unfold Cfg.val
  split
  · rename_i h3
    rw [if_pos h3] at h2
    exact absurd h2 (by decide)
  · rfl

/-- What the cells contain after the windows `D`. -/
structure CellInv (c : Cfg) (D : Finset (Nat × Nat)) (s : Nat → Nat → Cell) : Prop where
  count : ∀ i j, (s i j).count = ∑ v ∈ D with coversCell i j v, winSum c.one c.rows c.cols c.step c.size v
  mean : ∀ i j, (s i j).mean * (s i j).count = ∑ v ∈ D with coversCell i j v, winSum c.val c.rows c.cols c.step c.size v
  none : ∀ i j, (s i j).count = 0 → (s i j).mean = 0
  flags : ∀ i j, (s i j).flags = (D.filter fun v => coversCell i j v ∧ 0 < winSum c.one c.rows c.cols c.step c.size v ∧
    c.dense ≤ winSum c.one c.rows c.cols c.step c.size v).card

theorem cover_card (D : Finset (Nat × Nat)) (i j : Nat) : (D.filter fun v => coversCell i j v).card ≤ 16 := by
  have hsub : (D.filter fun v => coversCell i j v) ⊆ Finset.Ico (i - 3) (i - 3 + 4) ×ˢ Finset.Ico (j - 3) (j - 3 + 4) := by
    intro v hv
    have h := (Finset.mem_filter.1 hv).2
    unfold coversCell at h
    rw [Finset.mem_product, Finset.mem_Ico, Finset.mem_Ico]
    omega
  refine le_trans (Finset.card_le_card hsub) ?_
  rw [Finset.card_product, Nat.card_Ico, Nat.card_Ico, Nat.add_sub_cancel_left, Nat.add_sub_cancel_left]

theorem CellInv.step {c : Cfg} {D : Finset (Nat × Nat)} {s : Nat → Nat → Cell} (h : CellInv c D s) (hF : Fit c) {v : Nat × Nat} (hv : v ∉ D)
    (h1 : v.1 + 4 ≤ c.rows / c.step) (h2 : v.2 + 4 ≤ c.cols / c.step) :
    ∃ s', window c s v = some s' ∧ CellInv c (insert v D) s' := by
  refine ⟨_, window_spec hF s h1 h2, ?_⟩
  have hcnt : ∀ i j, 0 ≤ (s i j).count := by
    intro i j
    rw [h.count i j]
    exact Finset.sum_nonneg fun v _ => win_nonneg c v
  have hvf : ∀ i j, v ∉ D.filter fun v => coversCell i j v := fun i j hm => hv (Finset.mem_filter.1 hm).1
  by_cases hN : 0 < winSum c.one c.rows c.cols c.step c.size v
  · rw [if_pos hN]
    refine ⟨?_, ?_, ?_, ?_⟩
    · intro i j
      rw [Finset.filter_insert]
      by_cases hc : coversCell i j v
      · rw [if_pos hc, if_pos hc, Finset.sum_insert (hvf i j), ← h.count i j]
        exact add_comm _ _
      · rw [if_neg hc, if_neg hc, h.count i j]
    · intro i j
      rw [Finset.filter_insert]
      by_cases hc : coversCell i j v
      · rw [if_pos hc, if_pos hc, Finset.sum_insert (hvf i j), ← h.mean i j]
        dsimp only
        have hne : (((s i j).count + winSum c.one c.rows c.cols c.step c.size v : Int) : Rat) ≠ 0 := by
          have := hcnt i j
          exact_mod_cast (by omega : (s i j).count + winSum c.one c.rows c.cols c.step c.size v ≠ 0)
        rw [div_mul_cancel₀ _ hne]
        exact add_comm _ _
      · rw [if_neg hc, if_neg hc, h.mean i j]
    · intro i j
      by_cases hc : coversCell i j v
      · rw [if_pos hc]
        dsimp only
        intro h0
        have := hcnt i j
        omega
      · rw [if_neg hc]
        exact h.none i j
    · intro i j
      rw [Finset.filter_insert]
      by_cases hc : coversCell i j v
      · rw [if_pos hc]
        dsimp only
        by_cases hd : c.dense ≤ winSum c.one c.rows c.cols c.step c.size v
        · rw [if_pos hd, if_pos ⟨hc, hN, hd⟩, Finset.card_insert_of_notMem (fun hm => hv (Finset.mem_filter.1 hm).1), ← h.flags i j]
          have hle : (s i j).flags ≤ 16 := by
            rw [h.flags i j]
            refine le_trans (Finset.card_le_card fun u hu => ?_) (cover_card D i j)
            rw [Finset.mem_filter] at hu ⊢
            exact ⟨hu.1, hu.2.1⟩
          omega
        · rw [if_neg hd, if_neg (fun hx => hd hx.2.2), h.flags i j]
      · rw [if_neg hc, if_neg (fun hx => hc hx.1), h.flags i j]
  · rw [if_neg hN]
    have h0 : winSum c.one c.rows c.cols c.step c.size v = 0 := le_antisymm (not_lt.1 hN) (win_nonneg c v)
    refine ⟨?_, ?_, h.none, ?_⟩
    · intro i j
      rw [Finset.filter_insert, h.count i j]
      split
      · rw [Finset.sum_insert (hvf i j), h0, zero_add]
      · rfl
    · intro i j
      rw [Finset.filter_insert, h.mean i j]
      split
      · rw [Finset.sum_insert (hvf i j), win_zero c v h0, zero_add]
      · rfl
    · intro i j
      rw [Finset.filter_insert, if_neg (fun hx => hN hx.2.1), h.flags i j]

theorem runWindows_spec {c : Cfg} (hF : Fit c) : ∀ (l : List (Nat × Nat)) (D : Finset (Nat × Nat)) (s : Nat → Nat → Cell), l.Nodup → (∀ v ∈ l, v ∉ D) →
    (∀ v ∈ l, v.1 + 4 ≤ c.rows / c.step ∧ v.2 + 4 ≤ c.cols / c.step) → CellInv c D s →
    ∃ s', runWindows c l s = some s' ∧ CellInv c (D ∪ l.toFinset) s'
  | [], D, s, _, _, _, h => ⟨s, rfl, by simpa using h⟩
  | v :: l, D, s, hn, hd, hw, h => by
    obtain ⟨h1, h2⟩ := hw v (List.mem_cons_self ..)
    obtain ⟨s', h3, h4⟩ := h.step hF (hd v (List.mem_cons_self ..)) h1 h2
    rw [List.nodup_cons] at hn
    obtain ⟨s'', h5, h6⟩ := runWindows_spec hF l (insert v D) s' hn.2 (by
      intro u hu hm
      rcases Finset.mem_insert.1 hm with e | e
      · exact hn.1 (e ▸ hu)
      · exact hd u (List.mem_cons_of_mem _ hu) e) (fun u hu => hw u (List.mem_cons_of_mem _ hu)) h4
    refine ⟨s'', by rw [runWindows, h3, Option.bind_some]; exact h5, ?_⟩
    have : insert v D ∪ l.toFinset = D ∪ (v :: l).toFinset := by
      ext u
      simp only [Finset.mem_union, Finset.mem_insert, List.mem_toFinset, List.mem_cons]
      constructor
      · rintro ((h | h) | h)
        · exact Or.inr (Or.inl h)
        · exact Or.inl h
        · exact Or.inr (Or.inr h)
      · rintro (h | h | h)
        · exact Or.inl (Or.inr h)
        · exact Or.inl (Or.inl h)
        · exact Or.inr h
    rw [← this]
    exact h6

theorem windows_nodup (a b : Nat) : ((List.range a).flatMap fun k => (List.range b).map fun l => (k, l)).Nodup := by
  rw [List.nodup_flatMap]
  refine ⟨fun k _ => List.Nodup.map (fun x y h => (Prod.mk.inj h).2) List.nodup_range, ?_⟩
  refine List.Pairwise.imp ?_ (List.nodup_range (n := a))
  intro x y hne
  rw [Function.onFun, List.disjoint_left]
  intro u hu hv
  obtain ⟨_, _, rfl⟩ := List.mem_map.1 hu
  obtain ⟨_, _, e⟩ := List.mem_map.1 hv
  exact hne (Prod.mk.inj e).1.symm

/-- The cells after all windows. -/
theorem cells_spec {c : Cfg} (hF : Fit c) : ∃ s, cells c = some s ∧ CellInv c (windowsOf c.rows c.cols c.step) s := by
  have hpos : c.step ≠ 0 := by unfold Cfg.step; have := hF.four; omega
  obtain ⟨s, h1, h2⟩ := runWindows_spec hF (windows c) ∅ (fun _ _ => ⟨0, 0, 0⟩) (windows_nodup _ _) (by simp) (by
    intro v hv
    unfold windows at hv
    rw [hF.nr, hF.nc] at hv
    simp only [List.mem_flatMap, List.mem_map, List.mem_range] at hv
    obtain ⟨k, hk, l, hl, rfl⟩ := hv
    dsimp only
    omega) ⟨by simp, by simp, by simp, by simp⟩
  refine ⟨s, by unfold cells; rw [if_neg hpos]; exact h1, ?_⟩
  have : ∅ ∪ (windows c).toFinset = windowsOf c.rows c.cols c.step := by
    ext v
    obtain ⟨x, y⟩ := v
    unfold windows windowsOf
    rw [hF.nr, hF.nc]
    simp only [Finset.mem_union, Finset.notMem_empty, false_or, List.mem_toFinset, List.mem_flatMap, List.mem_map, List.mem_range, Finset.mem_product,
      Finset.mem_range, Prod.mk.injEq]
    constructor
    · rintro ⟨k, hk, l, hl, rfl, rfl⟩; exact ⟨hk, hl⟩
    · rintro ⟨hk, hl⟩; exact ⟨x, hk, y, hl, rfl, rfl⟩
  rw [← this]
  exact h2

/-- A pixel of a side is in every window that contains its cell. -/
theorem pixel_in_window {n t s r k : Nat} (h4 : 4 ≤ s) (ht : t = s / 4) (hr : r < n) (hk : k < n / t - 3)
    (h1 : k ≤ min (r / t) (n / t - 1)) (h2 : min (r / t) (n / t - 1) < k + 4) : t * k ≤ r ∧ r ≤ winStop n t s k := by
  have hpos : 0 < t := by omega
  have hq : t * (r / t) ≤ r := Nat.mul_div_le r t
  have hq' : r < t * (r / t + 1) := by
    rw [Nat.mul_add, Nat.mul_one]
    have := Nat.div_add_mod r t
    have := Nat.mod_lt r hpos
    omega
  refine ⟨le_trans (Nat.mul_le_mul_left t (le_trans h1 (Nat.min_le_left _ _))) hq, ?_⟩
  unfold winStop
  split
  · omega
  · have hle : r / t ≤ n / t := Nat.div_le_div_right (le_of_lt hr)
    have hlt : r / t + 1 ≤ k + 4 := by omega
    have h3 : t * (r / t + 1) ≤ t * (k + 4) := Nat.mul_le_mul_left t hlt
    rw [Nat.mul_add t k 4] at h3
    omega

end Verif.AutoWindow
