import Verif.Model.SubStride
import Verif.Spec.Mat
import Verif.Props.DataType
import Mathlib.Tactic.Linarith
import Mathlib.Tactic.Ring

/-!
# C184: every `n`-th element of an array
-/

namespace Verif.Props

open Verif.Mat Verif.Spec Verif.DataType

theorem stride_size {size s : Int} (h : 0 ≤ size) (hs : 1 ≤ s) :
    ∃ n, poolSize (size.toNat + 1) size s s = some n ∧ ∀ k, 0 ≤ k → (k < n ↔ k * s < size) := by
  obtain ⟨n, h1, h2, h3⟩ := C124_pool size s s h hs
  refine ⟨n, h1, fun k hk => ⟨h2.1 k hk, fun hlt => ?_⟩⟩
  have hn : size ≤ n * s := by
    rcases h2.2.2.2 with ⟨_, h4⟩ | h4
    · have : (n - 1) * s + s = n * s := by ring
      omega
    · exact h4
  by_contra hc
  have : n * s ≤ k * s := mul_le_mul_of_nonneg_right (by omega) (by omega)
  omega

/-- The index in the source. -/
def strideIndex (strides idx : List Int) : List Int := List.zipWith (fun s i => i * s) strides idx

/-- The relation of the dimensions before and after. -/
theorem strideDims_spec : ∀ (ds : List Dim) (ss : List Int), ds.length = ss.length → (∀ d ∈ ds, 0 ≤ d.size) → (∀ s ∈ ss, 1 ≤ s) →
    ∃ r, strideDims ds ss = some r ∧
      (∀ idx, MatIndex (r.map Dim.size) idx → MatIndex (ds.map Dim.size) (strideIndex ss idx) ∧
        ∀ p, ptrLoop r idx p = ptrLoop ds (strideIndex ss idx) p) ∧
      (∀ idx idx', MatIndex (r.map Dim.size) idx → MatIndex (r.map Dim.size) idx' → strideIndex ss idx = strideIndex ss idx' → idx = idx') ∧
      ∀ idx, MatIndex (ds.map Dim.size) idx → List.Forall₂ (fun s i => s ∣ i) ss idx →
        ∃ idx', MatIndex (r.map Dim.size) idx' ∧ strideIndex ss idx' = idx := by
  intro ds
  induction ds with
  | nil =>
    intro ss hl _ _
    have : ss = [] := List.length_eq_zero_iff.1 hl.symm
    subst this
    refine ⟨[], rfl, fun idx h => ?_, fun idx idx' h h' _ => ?_, fun idx h _ => ?_⟩
    · cases h; exact ⟨List.Forall₂.nil, fun p => rfl⟩
    · cases h; cases h'; rfl
    · cases h; exact ⟨[], List.Forall₂.nil, rfl⟩
  | cons d ds ih =>
    intro ss hl hd hs
    cases ss with
    | nil => simp at hl
    | cons s ss =>
      have hs1 : 1 ≤ s := hs s List.mem_cons_self
      obtain ⟨n, hn1, hn2⟩ := stride_size (hd d List.mem_cons_self) hs1
      obtain ⟨r, hr, h1, h2, h3⟩ := ih ss (by simpa using hl) (fun x hx => hd x (List.mem_cons_of_mem _ hx)) fun x hx => hs x (List.mem_cons_of_mem _ hx)
      refine ⟨⟨n, d.step * s⟩ :: r, by rw [strideDims, hn1, hr], fun idx h => ?_, fun idx idx' h h' he => ?_, fun idx h hdv => ?_⟩
      · cases h with
        | cons hi ht =>
          rename_i i is
          obtain ⟨h4, h5⟩ := h1 is ht
          refine ⟨List.Forall₂.cons ⟨mul_nonneg hi.1 (by omega), (hn2 i hi.1).1 hi.2⟩ h4, fun p => ?_⟩
          simp only [strideIndex, List.zipWith_cons_cons, ptrLoop]
          rw [h5]
          have : p + i * (d.step * s) = p + i * s * d.step := by ring
          rw [this]; rfl
      · cases h with
        | cons hi ht =>
          cases h' with
          | cons hi' ht' =>
            simp only [strideIndex, List.zipWith_cons_cons, List.cons.injEq] at he
            rw [mul_right_cancel₀ (by omega) he.1, h2 _ _ ht ht' he.2]
      · cases h with
        | cons hi ht =>
          cases hdv with
          | cons hv hvt =>
            obtain ⟨k, hk⟩ := hv
            rename_i i is
            obtain ⟨idx', h6, h7⟩ := h3 is ht hvt
            have hk0 : 0 ≤ k := by
              by_contra hc
              have h8 : s * k < 0 := mul_neg_of_pos_of_neg (by omega) (by omega)
              have h9 := hi.1
              omega
            refine ⟨k :: idx', List.Forall₂.cons ⟨hk0, (hn2 k hk0).2 ?_⟩ h6, ?_⟩
            · rw [mul_comm, ← hk]; exact hi.2
            · simp only [strideIndex, List.zipWith_cons_cons, List.cons.injEq]
              exact ⟨by rw [hk]; ring, h7⟩

/-- **C184.**  `sub_stride` shows exactly the elements of the array whose indices are multiples of the strides: element `idx` is element `idx` times
strides of the array, in the same memory. -/
theorem C184_stride (m : Mat) (strides : List Int) (hl : m.dims.length = strides.length) (hd : ∀ d ∈ m.dims, 0 ≤ d.size) (hs : ∀ s ∈ strides, 1 ≤ s) :
    ∃ v, subStride m strides = some v ∧ v.chan = m.chan ∧
      MatView v m (fun idx => List.zipWith (fun s i => i * s) strides idx) 0 ∧
      ∀ idx, MatIndex (matSizes m) idx → List.Forall₂ (fun s i => s ∣ i) strides idx →
        ∃ idx', MatIndex (matSizes v) idx' ∧ List.zipWith (fun s i => i * s) strides idx' = idx := by
  obtain ⟨r, hr, h1, h2, h3⟩ := strideDims_spec m.dims strides hl hd hs
  refine ⟨{ m with dims := r }, by rw [subStride, hr]; rfl, rfl, ⟨rfl, ⟨le_refl _, by simp⟩, fun idx h => (h1 idx h).1, h2, fun idx c h => ?_⟩, h3⟩
  simp only [ptr, zero_add]
  rw [(h1 idx h).2]
  rfl

/-- Every second row and every third column. -/
example : subStride ⟨100, [⟨5, 7⟩, ⟨7, 1⟩], 0, 1⟩ [2, 3] = some ⟨100, [⟨3, 14⟩, ⟨3, 3⟩], 0, 1⟩ := by decide

end Verif.Props
