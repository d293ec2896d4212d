import Verif.Model.Gauss
import Verif.Spec.Gauss
import Mathlib.Algebra.Order.BigOperators.Group.List
import Mathlib.Tactic.Linarith
import Mathlib.Tactic.FieldSimp
import Mathlib.Tactic.Ring
import Mathlib.Tactic.Positivity

/-!
# C171–C172: blurring
-/

namespace Verif.Gauss

open Verif.Spec

theorem weight_eq (size : Nat) (sigma : ℝ) (i : Nat) :
    weight size sigma i = Real.exp (-(((i : ℝ) - (size / 2 : Nat)) ^ 2 / (2 * sigma ^ 2))) := by
  unfold weight
  have e : (((i : ℤ) - ((size / 2 : Nat) : ℤ) : ℤ) : ℝ) = (i : ℝ) - ((size / 2 : Nat) : ℝ) := by
    rw [Int.cast_sub, Int.cast_natCast, Int.cast_natCast]
  rw [e]
  congr 1
  by_cases h : sigma = 0
  · simp [h]
  · field_simp
    ring

theorem sum_div (c : ℝ) : ∀ l : List ℝ, (l.map fun x => x / c).sum = l.sum / c
  | [] => by simp
  | x :: l => by simp only [List.map_cons, List.sum_cons, sum_div c l]; ring

theorem sum_pos' {l : List ℝ} (hl : l ≠ []) (h : ∀ x ∈ l, 0 < x) : 0 < l.sum := by
  cases l with
  | nil => exact absurd rfl hl
  | cons x l =>
    rw [List.sum_cons]
    have h1 := h x List.mem_cons_self
    have h2 : 0 ≤ l.sum := List.sum_nonneg fun y hy => (h y (List.mem_cons_of_mem _ hy)).le
    linarith

theorem kernel_spec {size : Nat} (hs : 0 < size) {sigma : ℝ} (hn : sigma ≠ 0) : ∃ k, kernel size sigma = some k ∧ IsGaussian size sigma k := by
  unfold kernel
  rw [if_neg (fun h => hn h.1)]
  have hp : 0 < ((List.range size).map (weight size sigma)).sum := by
    apply sum_pos'
    · intro h; have := congrArg List.length h; simp at this; omega
    · intro x hx
      obtain ⟨i, _, rfl⟩ := List.mem_map.1 hx
      exact Real.exp_pos _
  refine ⟨_, rfl, by simp, ?_, 1 / ((List.range size).map (weight size sigma)).sum, by positivity, fun i hi => ?_⟩
  · rw [sum_div, div_self hp.ne']
  · rw [List.getElem?_map, List.getElem?_map, List.getElem?_range hi]
    simp only [Option.map_some, Option.some.injEq]
    rw [weight_eq]
    ring

end Verif.Gauss

namespace Verif.Props

open Verif.Gauss Verif.Spec

/-- **C171**, for a sigma that is not zero.  The kernel is the Gaussian kernel; with an odd number of elements it is symmetric, and an element nearer
to the middle is not smaller. -/
theorem C171_kernel_partial {size : Nat} (hs : 0 < size) {sigma : ℝ} (hn : sigma ≠ 0) :
    ∃ k, kernel size sigma = some k ∧ IsGaussian size sigma k ∧
    (∀ i < size, size % 2 = 1 → k[i]? = k[size - 1 - i]?) ∧
    ∀ i < size, ∀ j < size, ∀ x y, k[i]? = some x → k[j]? = some y → |(i : ℝ) - (size / 2 : Nat)| ≤ |(j : ℝ) - (size / 2 : Nat)| → 0 < y ∧ y ≤ x := by
  obtain ⟨k, h1, h2⟩ := kernel_spec hs hn
  refine ⟨k, h1, h2, fun i hi ho => ?_, fun i hi j hj x y hx hy hd => ?_⟩
  · obtain ⟨_, _, c, _, hk⟩ := h2
    rw [hk i hi, hk (size - 1 - i) (by omega)]
    have : ((size - 1 - i : Nat) : ℝ) - (size / 2 : Nat) = -((i : ℝ) - (size / 2 : Nat)) := by
      have h : (size - 1 - i) + i = 2 * (size / 2) := by omega
      have h' : ((size - 1 - i : Nat) : ℝ) + i = 2 * (size / 2 : Nat) := by exact_mod_cast h
      linarith
    rw [this, neg_sq]
  · obtain ⟨_, _, c, hc, hk⟩ := h2
    rw [hk i hi] at hx
    rw [hk j hj] at hy
    cases hx; cases hy
    refine ⟨mul_pos hc (Real.exp_pos _), ?_⟩
    apply mul_le_mul_of_nonneg_left _ hc.le
    rw [Real.exp_le_exp, neg_le_neg_iff]
    apply div_le_div_of_nonneg_right (sq_le_sq.2 hd)
    positivity

/-- A kernel of three elements: the middle is 1 / (1 + 2 exp (-1/2)). -/
example : kernel 3 1 = some ([Real.exp (-0.5), 1, Real.exp (-0.5)].map fun x => x / (Real.exp (-0.5) + (1 + Real.exp (-0.5)))) := by
  unfold kernel
  simp [List.range_succ, weight]

/-- **C171 is false** for sigma 0, for which `gaussian_blur` chooses a kernel of one element itself: `0 / 0` is computed. -/
theorem not_C171_zero (auto : ℝ → Nat) : kernels auto (-1) (-1) 0 0 = none := by
  simp [kernels, kernel]

/-- **C172**, when both kernels have the same size and the sigmas are positive.  The image is blurred with the Gaussian kernels of the sizes and
sigmas asked for. -/
theorem C172_sizes_partial (auto : ℝ → Nat) {w : Nat} (hw : 0 < w) {sx sy : ℝ} (hx : 0 < sx) (hy : 0 < sy) :
    ∃ kx ky, kernels auto w w sx sy = some (kx, ky) ∧ IsGaussian w sx kx ∧ IsGaussian w sy ky := by
  obtain ⟨kx, h1, h2⟩ := kernel_spec hw hx.ne'
  obtain ⟨ky, h3, h4⟩ := kernel_spec hw hy.ne'
  unfold kernels
  have hw' : ¬ (w : Int) < 0 := by omega
  simp only [if_neg (not_lt.2 hy.le), if_neg hw', Int.toNat_natCast, max_eq_right hx.le, max_eq_right hy.le, h1, Option.bind_some]
  by_cases h : sx = sy
  · subst h
    rw [if_pos ⟨trivial, rfl⟩]
    exact ⟨kx, kx, rfl, h2, h2⟩
  · rw [if_neg (fun hc => h hc.2), h3]
    exact ⟨kx, ky, rfl, h2, h4⟩

example : ∃ kx ky, kernels (fun _ => 7) (5 : Nat) (5 : Nat) 1 2 = some (kx, ky) ∧ IsGaussian 5 1 kx ∧ IsGaussian 5 2 ky :=
  C172_sizes_partial _ (by norm_num) one_pos two_pos

/-- **C172 is false** for different sizes: the vertical kernel has the size of the horizontal one. -/
theorem not_C172_sizes (auto : ℝ → Nat) {w h : Nat} (hw : 0 < w) (hne : w ≠ h) {sx sy : ℝ} (hx : 0 < sx) (hy : 0 < sy) :
    ∃ kx ky, kernels auto w h sx sy = some (kx, ky) ∧ ky.length = w ∧ ¬ IsGaussian h sy ky := by
  obtain ⟨kx, h1, h2⟩ := kernel_spec hw hx.ne'
  obtain ⟨ky, h3, h4⟩ := kernel_spec hw hy.ne'
  unfold kernels
  have hw' : ¬ (w : Int) < 0 := by omega
  have hh' : ¬ (h : Int) < 0 := by omega
  simp only [if_neg (not_lt.2 hy.le), if_neg hw', if_neg hh', Int.toNat_natCast, max_eq_right hx.le, max_eq_right hy.le, h1, Option.bind_some]
  rw [if_neg (fun hc => hne hc.1.symm), h3]
  exact ⟨kx, ky, rfl, h4.1, fun hc => hne (h4.1.symm.trans hc.1)⟩

end Verif.Props
