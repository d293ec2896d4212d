import Verif.Model.Hist
import Verif.Spec.Hist
import Mathlib.Tactic.Linarith
import Mathlib.Tactic.Ring
import Mathlib.Tactic.FieldSimp
import Mathlib.Tactic.Push

/-!
# C168: histograms
-/

namespace Verif.Hist

open Verif.Spec

theorem foldl_largest : ∀ (l : List ℚ) (x : ℚ),
    (l.foldl (fun m y => if m < y then y else m) x ∈ x :: l) ∧ ∀ y ∈ x :: l, y ≤ l.foldl (fun m y => if m < y then y else m) x
  | [], x => by simp
  | z :: l, x => by
    rw [List.foldl_cons]
    obtain ⟨h1, h2⟩ := foldl_largest l (if x < z then z else x)
    have hx := h2 _ List.mem_cons_self
    constructor
    · rcases List.mem_cons.1 h1 with h | h
      · rw [h]; split <;> simp
      · simp [h]
    · intro y hy
      rcases List.mem_cons.1 hy with rfl | hy
      · refine le_trans ?_ hx; split
        · exact le_of_lt ‹_›
        · exact le_refl _
      · rcases List.mem_cons.1 hy with rfl | hy
        · refine le_trans ?_ hx; split
          · exact le_refl _
          · exact not_lt.1 ‹_›
        · exact h2 y (List.mem_cons_of_mem _ hy)

theorem foldl_smallest : ∀ (l : List ℚ) (x : ℚ),
    (l.foldl (fun m y => if y < m then y else m) x ∈ x :: l) ∧ ∀ y ∈ x :: l, l.foldl (fun m y => if y < m then y else m) x ≤ y
  | [], x => by simp
  | z :: l, x => by
    rw [List.foldl_cons]
    obtain ⟨h1, h2⟩ := foldl_smallest l (if z < x then z else x)
    have hx := h2 _ List.mem_cons_self
    constructor
    · rcases List.mem_cons.1 h1 with h | h
      · rw [h]; split <;> simp
      · simp [h]
    · intro y hy
      rcases List.mem_cons.1 hy with rfl | hy
      · refine le_trans hx ?_; split
        · exact le_of_lt ‹_›
        · exact le_refl _
      · rcases List.mem_cons.1 hy with rfl | hy
        · refine le_trans hx ?_; split
          · exact le_refl _
          · exact not_lt.1 ‹_›
        · exact h2 y (List.mem_cons_of_mem _ hy)

theorem bins_eq (gap : ℚ) : ∀ (n : Nat) (b : ℚ), bins gap n b = (List.range n).map fun j : Nat => (b + j * gap, b + (j + 1) * gap)
  | 0, b => rfl
  | n + 1, b => by
    rw [bins, bins_eq gap n (b + gap), List.range_succ_eq_map, List.map_cons, List.map_map]
    congr 1
    · simp
    · apply List.map_congr_left
      intro j _
      simp only [Function.comp, Nat.cast_succ, Prod.mk.injEq]
      constructor <;> ring

theorem bins_start {gap : ℚ} (hg : 0 < gap) : ∀ (n : Nat) (b : ℚ) (r : ℚ × ℚ), r ∈ bins gap n b → b ≤ r.1
  | 0, _, _, h => by cases h
  | n + 1, b, r, h => by
    rcases List.mem_cons.1 h with rfl | h
    · exact le_refl _
    · have := bins_start hg n _ r h; linarith

/-- A number between the ends is in exactly one bin. -/
theorem bins_one {gap : ℚ} (hg : 0 < gap) : ∀ (n : Nat) (b x : ℚ), b ≤ x → x < b + n * gap → (bins gap n b).countP (fun r => inInterval r x) = 1
  | 0, b, x, h1, h2 => by simp at h2; linarith
  | n + 1, b, x, h1, h2 => by
    rw [bins, List.countP_cons]
    by_cases h : x < b + gap
    · have hz : (bins gap n (b + gap)).countP (fun r => inInterval r x) = 0 := by
        rw [List.countP_eq_zero]
        intro r hr
        have := bins_start hg n _ r hr
        simp only [inInterval, decide_eq_true_eq]
        intro hc; linarith [hc.1]
      rw [hz]; simp [inInterval, h1, h]
    · rw [bins_one hg n (b + gap) x (not_lt.1 h) (by push_cast at h2; linarith)]
      simp [inInterval, h]

theorem bump_spec (x : ℚ) (f : ℚ × ℚ → Int) : ∀ rs : List (ℚ × ℚ),
    bump x rs (rs.map f) = some (rs.map fun r => f r + if inInterval r x then 1 else 0)
  | [] => rfl
  | r :: rs => by
    simp only [List.map_cons, bump, bump_spec x f rs, Option.map_some, Option.some.injEq, List.cons.injEq, and_true, inInterval, ge_iff_le,
      decide_eq_true_eq]
    split <;> simp

theorem countAll_spec (rs : List (ℚ × ℚ)) : ∀ (data : List ℚ) (f : ℚ × ℚ → Int),
    countAll rs data (rs.map f) = some (rs.map fun r => f r + (data.countP (inInterval r) : Int))
  | [], f => by simp [countAll]
  | x :: l, f => by
    rw [countAll, bump_spec, Option.bind_some, countAll_spec rs l]
    congr 1
    apply List.map_congr_left
    intro r _
    rw [List.countP_cons]
    split <;> push_cast <;> ring

theorem sum_countP (rs : List (ℚ × ℚ)) : ∀ (data : List ℚ), (∀ x ∈ data, rs.countP (fun r => inInterval r x) = 1) →
    (rs.map fun r => data.countP (inInterval r)).sum = data.length
  | [], _ => by simp
  | x :: l, h => by
    have ih := sum_countP rs l (fun y hy => h y (List.mem_cons_of_mem _ hy))
    have hx := h x List.mem_cons_self
    have : ∀ rs : List (ℚ × ℚ), (rs.map fun r => (x :: l).countP (inInterval r)).sum =
        (rs.map fun r => l.countP (inInterval r)).sum + rs.countP (fun r => inInterval r x) := by
      intro rs
      induction rs with
      | nil => rfl
      | cons r rs ih =>
        simp only [List.countP_cons] at ih
        simp only [List.map_cons, List.sum_cons, List.countP_cons]
        omega
    rw [this, ih, hx]; rfl

end Verif.Hist

namespace Verif.Props

open Verif.Hist Verif.Spec

/-- **C168**, for data whose largest number is positive and zero counts for all bins.  The bins are equal intervals from the smallest number `mn` to
1.01 times the largest `mx`, the counts are those of the data in them, and every number is in exactly one bin. -/
theorem C168_hist_partial {data : List ℚ} {n : Nat} {mn mx : ℚ} (hn : 0 < n) (h1 : mn ∈ data) (h2 : mx ∈ data) (h3 : ∀ x ∈ data, mn ≤ x ∧ x ≤ mx)
    (hp : 0 < mx) :
    hist (List.replicate n 0) data n = some ((List.range n).map (equalInterval mn (mx * 101 / 100) n),
      (List.range n).map fun j => (data.countP (inInterval (equalInterval mn (mx * 101 / 100) n j)) : Int)) ∧
    (∀ x ∈ data, ((List.range n).map (equalInterval mn (mx * 101 / 100) n)).countP (fun r => inInterval r x) = 1) ∧
    ((List.range n).map fun j => data.countP (inInterval (equalInterval mn (mx * 101 / 100) n j))).sum = data.length := by
  have hb : bins ((mx + mx / 100 - mn) / n) n mn = (List.range n).map (equalInterval mn (mx * 101 / 100) n) := by
    rw [bins_eq]
    apply List.map_congr_left
    intro j _
    have : mx + mx / 100 - mn = mx * 101 / 100 - mn := by ring
    simp only [equalInterval, this]
  have hnq : (0 : ℚ) < n := by exact_mod_cast hn
  have hle := (h3 mn h1).2
  have hg : 0 < (mx + mx / 100 - mn) / n := div_pos (by linarith) hnq
  have hone : ∀ x ∈ data, ((List.range n).map (equalInterval mn (mx * 101 / 100) n)).countP (fun r => inInterval r x) = 1 := by
    intro x hx
    rw [← hb]
    refine bins_one hg n mn x (h3 x hx).1 ?_
    have : mn + n * ((mx + mx / 100 - mn) / n) = mx + mx / 100 := by field_simp; ring
    rw [this]
    have := (h3 x hx).2
    linarith
  refine ⟨?_, hone, ?_⟩
  · cases data with
    | nil => cases h1
    | cons d l =>
      have hmx : largest (d :: l) = some mx := by
        obtain ⟨a, b⟩ := foldl_largest l d
        exact congrArg some (le_antisymm (h3 _ a).2 (b mx h2))
      have hmn : smallest (d :: l) = some mn := by
        obtain ⟨a, b⟩ := foldl_smallest l d
        exact congrArg some (le_antisymm (b mn h1) (h3 _ a).1)
      have hz : List.replicate n (0 : Int) = (bins ((mx + mx / 100 - mn) / n) n mn).map fun _ => 0 := by
        rw [hb, List.map_map]
        apply List.ext_getElem <;> simp
      unfold hist
      simp only [hmx, hmn, Option.bind_some]
      rw [hz, countAll_spec, hb, Option.map_some, List.map_map]
      simp [Function.comp_def]
  · have := sum_countP _ data hone
    rw [List.map_map] at this
    exact this

/-- Four numbers in two bins. -/
example : hist (List.replicate 2 0) [1, 2, 100, 99] 2 = some ([(1, 51), (51, 101)], [2, 2]) := by decide +kernel

/-- **C168 is false** when the largest number is not positive: it is in no bin. -/
theorem not_C168_zero : hist (List.replicate 2 0) [0, -1] 2 = some ([(-1, -1 / 2), (-1 / 2, 0)], [1, 0]) := by decide +kernel

/-- **C168 is false** for an empty vector of counts, the usual value of an output: memory outside of it is written. -/
theorem not_C168_empty : hist [] [1, 2] 2 = none := by decide +kernel

end Verif.Props
