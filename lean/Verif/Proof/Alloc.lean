import Verif.Proof.Partition
import Mathlib.Algebra.BigOperators.Group.Finset.Basic
import Mathlib.Algebra.BigOperators.Ring.Finset
import Mathlib.Algebra.BigOperators.Intervals
import Mathlib.Tactic.Ring

/-!
# The shared arrays are divided exactly among the patches
-/

namespace Verif.Partition

open scoped BigOperators

theorem heapBase_eq (pi : Nat → PInfo) (k : Nat) :
    heapBase pi k = ∑ j ∈ Finset.range k, ((pi j).width * (pi j).height + 257) := by
  induction k with
  | zero => rfl
  | succ k ih => rw [heapBase, ih, Finset.sum_range_succ]

theorem pointBase_eq (pi : Nat → PInfo) (k : Nat) :
    pointBase pi k = ∑ j ∈ Finset.range k, ((pi j).width + 2) * ((pi j).height + 2) := by
  induction k with
  | zero => rfl
  | succ k ih => rw [pointBase, ih, Finset.sum_range_succ]

/-- Sums over all patches, row by row. -/
theorem sum_patches {hp : Nat} (hhp : 1 ≤ hp) (f : Nat → Nat → Nat) (vp : Nat) :
    ∑ k ∈ Finset.range (hp * vp), f (k % hp) (k / hp) =
      ∑ v ∈ Finset.range vp, ∑ c ∈ Finset.range hp, f c v := by
  induction vp with
  | zero => simp
  | succ v ih =>
    rw [Finset.sum_range_succ, ← ih, Nat.mul_succ, Finset.sum_range_add]
    congr 1
    refine Finset.sum_congr rfl ?_
    intro c hc
    have hc' := Finset.mem_range.1 hc
    have := patch_div (hp := hp) (a := c) (b := v) hc'
    rw [Nat.mul_comm hp v, this.1, this.2]

theorem sum_starts (n total m : Nat) : m < n →
    ∑ i ∈ Finset.range m, lengths n total i = starts n total m := by
  induction m with
  | zero => intro _; rfl
  | succ m ih =>
    intro h
    rw [Finset.sum_range_succ, ih (by omega), lengths_next (by omega)]

theorem sum_lengths {n total : Nat} (hn : 1 ≤ n) : ∑ i ∈ Finset.range n, lengths n total i = total := by
  obtain ⟨m, rfl⟩ : ∃ m, n = m + 1 := ⟨n - 1, by omega⟩
  rw [Finset.sum_range_succ, sum_starts _ _ _ (by omega)]
  have := (lengths_sum (n := m + 1) (total := total) (by omega)).2
  simpa using this

/-- The heap slices of the patches use up the heap array exactly. -/
theorem heapBase_total {hp vp w h : Nat} (hhp : 1 ≤ hp) (hvp : 1 ≤ vp) :
    heapBase (pinfo hp vp w h) (hp * vp) = heapSize (hp * vp) w h := by
  rw [heapBase_eq, Finset.sum_add_distrib]
  have := sum_patches hhp (fun c v => lengths hp w c * lengths vp h v) vp
  simp only [pinfo]
  rw [this]
  simp only [← Finset.sum_mul]
  rw [← Finset.mul_sum, sum_lengths hhp, sum_lengths hvp,
    Finset.sum_const_nat (m := 257) (fun _ _ => rfl), Finset.card_range]
  unfold heapSize
  ring

/-- The padded patches use up the arrays `m_points` and `m_extended_image` exactly. -/
theorem pointBase_total {hp vp w h : Nat} (hhp : 1 ≤ hp) :
    pointBase (pinfo hp vp w h) (hp * vp) = pointSize hp vp w h := by
  have hl : ∀ (f : Nat → Nat) n, ((List.range n).map f).sum = ∑ i ∈ Finset.range n, f i := by
    intro f n
    induction n with
    | zero => rfl
    | succ n ih => rw [List.range_succ, List.map_append, List.sum_append, ih, Finset.sum_range_succ]; simp
  rw [pointBase_eq]
  have := sum_patches hhp (fun c v => (lengths hp w c + 2) * (lengths vp h v + 2)) vp
  simp only [pinfo]
  rw [this]
  unfold pointSize
  simp only [hl]
  exact Finset.sum_comm

theorem heapBase_mono (pi : Nat → PInfo) {j k : Nat} (h : j ≤ k) : heapBase pi j ≤ heapBase pi k := by
  induction h with
  | refl => exact le_refl _
  | step _ ih => rw [heapBase]; omega

theorem pointBase_mono (pi : Nat → PInfo) {j k : Nat} (h : j ≤ k) : pointBase pi j ≤ pointBase pi k := by
  induction h with
  | refl => exact le_refl _
  | step _ ih => rw [pointBase]; omega

end Verif.Partition
