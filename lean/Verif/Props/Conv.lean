import Verif.Model.Conv
import Mathlib.Algebra.Order.Ring.Rat
import Mathlib.Tactic.Linarith
import Mathlib.Tactic.Positivity
import Mathlib.Tactic.Ring

/-!
# C173–C174: convolution
-/

namespace Verif.Conv

open Verif.Spec

theorem size_count (b : ConvBoundary) (n k : Nat) : size b n k = b.count n k := by cases b <;> rfl

theorem start_first (b : ConvBoundary) (n k : Nat) (hk : 0 < k) : startOf b n k = b.first k := by
  cases b <;> simp only [startOf, ConvBoundary.first, fullSize, size]
  · rw [Int.tdiv_eq_ediv_of_nonneg (by omega)]; omega
  · rw [Int.tdiv_eq_ediv_of_nonneg (by omega)]; omega

theorem result_lt {s c : Int} (hs : 0 < s) (hc : 0 < c) (i : Nat) : i < (Int.tdiv (c - 1) s + 1).toNat ↔ (i : Int) * s < c := by
  rw [Int.tdiv_eq_ediv_of_nonneg (by omega)]
  have h0 : 0 ≤ (c - 1) / s := Int.ediv_nonneg (by omega) (by omega)
  have : i < ((c - 1) / s + 1).toNat ↔ (i : Int) ≤ (c - 1) / s := by omega
  rw [this, Int.le_ediv_iff_mul_le hs]
  omega

theorem conv_spec {b : ConvBoundary} {stride : Nat} {src ker out : List ℚ} (h : conv b stride src ker = some out) :
    0 < src.length ∧ 0 < ker.length ∧ 0 < stride ∧ IsConvolution b stride src ker out := by
  unfold conv at h
  split at h
  · cases h
  · rename_i h0
    split at h
    · cases h
    · rename_i h1
      cases h
      have hl : ∀ i : Nat, i < (resultSize b src.length ker.length stride).toNat ↔ (i : Int) * stride < b.count src.length ker.length := by
        intro i
        unfold resultSize
        rw [size_count]
        rw [size_count] at h1
        exact result_lt (Int.natCast_pos.2 (by omega)) (by omega) i
      refine ⟨by omega, by omega, by omega, fun i => by simpa using hl i, fun i hi => ?_⟩
      simp only [List.length_map, List.length_range] at hi
      rw [List.getElem?_map, List.getElem?_range hi, Option.map_some, start_first b _ _ (by omega)]
      rfl

end Verif.Conv

namespace Verif.Props

open Verif.Conv Verif.Spec

/-- **C173.**  `conv` gives the convolution for all boundary treatments and strides; it ends with a result for all signals, kernels and strides that are
not empty, except when only complete overlaps are asked for and the kernel is longer than the signal.  With complete overlaps only, all elements used
are elements of the signal. -/
theorem C173_conv (b : ConvBoundary) {stride : Nat} {src ker : List ℚ} (hs : 0 < stride) (h1 : src ≠ []) (h2 : ker ≠ [])
    (hv : b = .valid → ker.length ≤ src.length) :
    ∃ out, conv b stride src ker = some out ∧ out ≠ [] ∧ IsConvolution b stride src ker out ∧
    (b = .valid → ∀ i < out.length, ∀ j < ker.length,
      0 ≤ b.first ker.length + (i : Int) * stride - j ∧ b.first ker.length + (i : Int) * stride - j < src.length) := by
  have hp1 := List.length_pos_iff.2 h1
  have hp2 := List.length_pos_iff.2 h2
  cases hc : conv b stride src ker with
  | none =>
    unfold conv at hc
    rw [if_neg (by omega)] at hc
    split at hc
    · rename_i h
      exfalso
      cases b <;> simp only [size, fullSize] at h
      · have := hv rfl; omega
      · omega
      · omega
    · cases hc
  | some out =>
    obtain ⟨_, _, _, hC⟩ := conv_spec hc
    refine ⟨out, rfl, ?_, hC, ?_⟩
    · intro ho
      have := (hC.1 0).2 (by
        cases b <;> simp only [ConvBoundary.count]
        · have := hv rfl; omega
        · omega
        · omega)
      rw [ho] at this
      simp at this
    · intro hb i hi j hj
      have := (hC.1 i).1 hi
      subst hb
      simp only [ConvBoundary.count, ConvBoundary.first] at this ⊢
      have h0 : (0 : Int) ≤ (i : Int) * stride := by positivity
      omega

/-- Differences of neighbours with stride 2. -/
example : conv .valid 2 [1, 4, 9, 16, 25] [1, -1] = some [3, 7] ∧ conv .same 1 [1, 2, 3] [1, 0, 0] = some [2, 3, 0] ∧
    conv .full 1 [1, 2] [3, 4] = some [3, 10, 8] := by decide +kernel

/-- **C174.**  With the alignments by row and column every channel of the kernel is used for exactly one pair of an input and an output channel; with
the crossed alignments every output channel has its own pair of an input channel and a kernel channel. -/
theorem C174_channels (row : Bool) (inputs other : Nat) :
    (∀ q < inputs * other, ∃ i o, i < inputs ∧ o < other ∧ kernelChannel row inputs other i o = q ∧
      ∀ i' o', i' < inputs → o' < other → kernelChannel row inputs other i' o' = q → i' = i ∧ o' = o) ∧
    (∀ i o, i < inputs → o < other → kernelChannel row inputs other i o < inputs * other) ∧
    (∀ o < inputs * other, (crossChannels row inputs other o).1 < inputs ∧ (crossChannels row inputs other o).2 < other) ∧
    ∀ i k, i < inputs → k < other → ∃ o < inputs * other, crossChannels row inputs other o = (i, k) ∧
      ∀ o' < inputs * other, crossChannels row inputs other o' = (i, k) → o' = o := by
  have key : ∀ m n q : Nat, q < m * n → q / n < m ∧ q % n < n := by
    intro m n q h
    have hn : 0 < n := by
      rcases Nat.eq_zero_or_pos n with rfl | h'
      · simp at h
      · exact h'
    exact ⟨Nat.div_lt_of_lt_mul (by rwa [Nat.mul_comm]), Nat.mod_lt _ hn⟩
  have dm : ∀ n a b : Nat, b < n → (a * n + b) / n = a ∧ (a * n + b) % n = b := by
    intro n a b hb
    constructor
    · rw [Nat.mul_comm, Nat.mul_add_div (by omega), Nat.div_eq_of_lt hb]; rfl
    · rw [Nat.mul_comm, Nat.mul_add_mod, Nat.mod_eq_of_lt hb]
  have lt : ∀ m n a b : Nat, a < m → b < n → a * n + b < m * n := by
    intro m n a b ha hb
    have : (a + 1) * n ≤ m * n := Nat.mul_le_mul_right _ ha
    rw [Nat.add_mul] at this
    omega
  cases row
  · refine ⟨fun q hq => ?_, fun i o hi ho => ?_, fun o ho => ?_, fun i k hi hk => ?_⟩
    · rw [Nat.mul_comm] at hq
      obtain ⟨h1, h2⟩ := key _ _ _ hq
      refine ⟨q % inputs, q / inputs, h2, h1, ?_, fun i' o' hi' _ h => ?_⟩
      · simp only [kernelChannel, Bool.false_eq_true, if_false]; exact Nat.div_add_mod' q inputs
      · simp only [kernelChannel, Bool.false_eq_true, if_false] at h
        subst h
        exact ⟨(dm _ _ _ hi').2.symm, (dm _ _ _ hi').1.symm⟩
    · simp only [kernelChannel, Bool.false_eq_true, if_false]
      rw [Nat.mul_comm inputs]; exact lt _ _ _ _ ho hi
    · rw [Nat.mul_comm] at ho
      obtain ⟨h1, h2⟩ := key _ _ _ ho
      exact ⟨h2, h1⟩
    · refine ⟨k * inputs + i, by rw [Nat.mul_comm inputs]; exact lt _ _ _ _ hk hi, ?_, fun o' _ h => ?_⟩
      · simp only [crossChannels, Bool.false_eq_true, if_false, (dm _ _ _ hi).1, (dm _ _ _ hi).2]
      · simp only [crossChannels, Bool.false_eq_true, if_false, Prod.mk.injEq] at h
        rw [← h.1, ← h.2]; exact (Nat.div_add_mod' o' inputs).symm
  · refine ⟨fun q hq => ?_, fun i o hi ho => lt _ _ _ _ hi ho, fun o ho => key _ _ _ ho, fun i k hi hk => ?_⟩
    · obtain ⟨h1, h2⟩ := key _ _ _ hq
      refine ⟨q / other, q % other, h1, h2, Nat.div_add_mod' q other, fun i' o' _ ho' h => ?_⟩
      simp only [kernelChannel, if_true] at h
      subst h
      exact ⟨(dm _ _ _ ho').1.symm, (dm _ _ _ ho').2.symm⟩
    · refine ⟨i * other + k, lt _ _ _ _ hi hk, ?_, fun o' _ h => ?_⟩
      · simp only [crossChannels, if_true, (dm _ _ _ hk).1, (dm _ _ _ hk).2]
      · simp only [crossChannels, if_true, Prod.mk.injEq] at h
        rw [← h.1, ← h.2]; exact (Nat.div_add_mod' o' other).symm

example : kernelChannel true 2 3 1 2 = 5 ∧ kernelChannel false 2 3 1 2 = 5 ∧ kernelChannel true 2 3 1 0 = 3 ∧
    crossChannels true 2 3 4 = (1, 1) ∧ crossChannels false 2 3 4 = (0, 2) := by decide

end Verif.Props
