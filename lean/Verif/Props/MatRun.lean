import Verif.Proof.MatRun
import Verif.Props.MatView

/-!
# C103–C105: arrays without gaps, lowest address, element iterator
-/

namespace Verif.Props

open Verif.Spec Verif.Mat

/-! ### C103: `is_continuous` -/

/-- In row-major order each element lies right behind (or right before) the one before it. -/
def MatInOrder (m : Mat) : Prop :=
  ∃ s : Int, (s = m.elemSize ∨ s = -m.elemSize) ∧
    ∀ idx, MatIndex (matSizes m) idx → ptr m idx 0 = m.data + s * matRank (matSizes m) idx

/-- The property: `is_continuous` tells arrays without gaps from others. -/
def ContinuousTells : Prop :=
  ∀ m : Mat, m.dims ≠ [] → 0 < m.chan → (∀ n ∈ matSizes m, 1 ≤ n) → (isContinuous m = true ↔ MatInOrder m)

theorem elemSize_pos {m : Mat} (h : 0 < m.chan) : 0 < m.elemSize := mul_pos (unit_pos m) h

/-- A row of a picture has no gap but is not called continuous: the step of its only row is looked at. -/
theorem not_C103_continuous : ¬ ContinuousTells := by
  intro h
  have := (h ⟨0, [⟨1, 8⟩, ⟨3, 1⟩], 0, 1⟩ (by decide) (by decide) (by decide)).2 ⟨1, Or.inl (by decide), ?_⟩
  · revert this; decide
  · intro idx hi
    cases hi with
    | @cons _ i _ is hx hr =>
      cases hr with
      | @cons _ j _ js hy hs =>
        cases hs
        simp only [ptr_off, off, matRank, matSizes, List.map_cons, List.map_nil, matCount, Mat.unit]
        simp only at hx
        have : i = 0 := by omega
        subst this
        ring

/-- C103: what is called continuous has no gaps; without dimensions of size 1 the converse holds. -/
theorem C103_continuous_partial (m : Mat) (hne : m.dims ≠ []) (hc : 0 < m.chan) :
    (isContinuous m = true → MatInOrder m) ∧
      ((∀ n ∈ matSizes m, 2 ≤ n) → MatInOrder m → isContinuous m = true) := by
  have hp := elemSize_pos hc
  constructor
  · intro h
    obtain ⟨s, hs, e⟩ := (isContinuous_iff hne).1 h
    refine ⟨s, by omega, fun idx hi => ?_⟩
    rw [ptr_off]
    have := off_autoStep s (matSizes m) idx (MatIndex.length hi)
    rw [← e] at this
    rw [this]; ring
  · rintro h2 ⟨s, hs, h⟩
    rw [isContinuous_iff hne]
    refine ⟨s, by omega, autoStep_of_rank s m.dims (fun d hd => h2 _ (List.mem_map.2 ⟨d, hd, rfl⟩)) fun idx hi => ?_⟩
    have := h idx hi
    rw [ptr_off] at this
    simp only [matSizes] at this
    linarith

example : ∃ m : Mat, m.dims ≠ [] ∧ 0 < m.chan ∧ isContinuous m = true ∧ ∀ n ∈ matSizes m, 2 ≤ n :=
  ⟨⟨33, [⟨3, -12⟩, ⟨4, -3⟩], 0, 3⟩, by decide, by decide, by decide, by decide⟩

/-! ### C104: `memory_data`, `memory_size` -/

theorem memory_low (ds : List Dim) (h1 : ∀ d ∈ ds, 1 ≤ d.size) (p : Int) :
    (∃ idx, MatIndex (ds.map Dim.size) idx ∧
      ds.foldl (fun p d => if d.step < 0 then p + (d.size - 1) * d.step else p) p = p + off ds idx) ∧
      ∀ idx, MatIndex (ds.map Dim.size) idx →
        ds.foldl (fun p d => if d.step < 0 then p + (d.size - 1) * d.step else p) p ≤ p + off ds idx := by
  induction ds generalizing p with
  | nil =>
    refine ⟨⟨[], matIndex_nil, by simp [off]⟩, fun idx hi => ?_⟩
    cases hi
    simp [off]
  | cons d ds ih =>
    have hd := h1 d (by simp)
    obtain ⟨⟨x, hx, ex⟩, hlow⟩ := ih (fun e he => h1 e (by simp [he])) (if d.step < 0 then p + (d.size - 1) * d.step else p)
    simp only [List.foldl_cons]
    by_cases hs : d.step < 0
    · simp only [hs, if_true] at ex hlow ⊢
      refine ⟨⟨(d.size - 1) :: x, matIndex_cons.2 ⟨⟨by omega, by omega⟩, hx⟩, by rw [ex, off]; ring⟩, fun idx hi => ?_⟩
      cases hi with
      | @cons _ i _ is hi hr =>
        have := hlow is hr
        rw [off]
        nlinarith [hi.1, hi.2]
    · simp only [hs, if_false] at ex hlow ⊢
      refine ⟨⟨0 :: x, matIndex_cons.2 ⟨⟨by omega, by omega⟩, hx⟩, by rw [ex, off]; ring⟩, fun idx hi => ?_⟩
      cases hi with
      | @cons _ i _ is hi hr =>
        have := hlow is hr
        rw [off]
        nlinarith [hi.1, hi.2]

/-- C104: `memory_data` is the lowest address of an element, whatever the signs of the steps. -/
theorem C104_lowest (m : Mat) (h1 : ∀ n ∈ matSizes m, 1 ≤ n) :
    (∃ idx, MatIndex (matSizes m) idx ∧ memoryData m = ptr m idx 0) ∧
      ∀ idx, MatIndex (matSizes m) idx → memoryData m ≤ ptr m idx 0 := by
  have := memory_low m.dims (fun d hd => h1 _ (List.mem_map.2 ⟨d, hd, rfl⟩)) m.data
  simp only [ptr_off, zero_mul, add_zero]
  exact this

example : ∃ m : Mat, (∀ n ∈ matSizes m, 1 ≤ n) ∧ memoryData m ≠ m.data :=
  ⟨⟨33, [⟨3, -12⟩, ⟨4, -3⟩], 0, 3⟩, by decide, by decide⟩

/-- The place of an element in the memory of an array without gaps. -/
def blockPlace (ns : List Int) (s E : Int) (idx : List Int) : Int :=
  if s = E then matRank ns idx else matCount ns - 1 - matRank ns idx

theorem block_key {m : Mat} (hc : 0 < m.chan) (h1 : ∀ n ∈ matSizes m, 1 ≤ n) {s : Int}
    (hs : s = m.elemSize ∨ s = -m.elemSize)
    (hr : ∀ idx, MatIndex (matSizes m) idx → ptr m idx 0 = m.data + s * matRank (matSizes m) idx) (idx : List Int)
    (hi : MatIndex (matSizes m) idx) :
    ptr m idx 0 = memoryData m + m.elemSize * blockPlace (matSizes m) s m.elemSize idx := by
  have hp := elemSize_pos hc
  obtain ⟨⟨lo, hlo, elo⟩, hmin⟩ := C104_lowest m h1
  have h0 : ∀ n ∈ matSizes m, 0 ≤ n := fun n hn => by have := h1 n hn; omega
  have hN := matCount_pos h1
  have blo := matRank_bound hlo
  rw [blockPlace]
  split
  · rename_i e
    have z := hmin _ (zeros_index h1)
    rw [hr _ (zeros_index h1), matRank_zeros] at z
    rw [elo, hr lo hlo] at z
    have : matRank (matSizes m) lo = 0 := by nlinarith [blo.1]
    rw [elo, hr lo hlo, hr idx hi, this, e]; ring
  · rename_i e
    have es : s = -m.elemSize := by omega
    have sp := unrank_spec h0 (r := matCount (matSizes m) - 1) (by omega) (by omega)
    have z := hmin _ sp.1
    rw [hr _ sp.1, sp.2, elo, hr lo hlo, es] at z
    have : matRank (matSizes m) lo = matCount (matSizes m) - 1 := by nlinarith [blo.2]
    rw [elo, hr lo hlo, hr idx hi, this, es]; ring

theorem block_bound {ns idx : List Int} (s : Int) {E u ch c b : Int} (hE : E = u * ch) (hu : 0 < u) (hc : 0 < ch)
    (hi : MatIndex ns idx) (c0 : 0 ≤ c) (c1 : c < ch) (b0 : 0 ≤ b) (b1 : b < u) :
    0 ≤ E * blockPlace ns s E idx + c * u + b ∧ E * blockPlace ns s E idx + c * u + b < E * matCount ns := by
  have hp : 0 < E := by rw [hE]; exact mul_pos hu hc
  have bd := matRank_bound hi
  have hq : 0 ≤ blockPlace ns s E idx ∧ blockPlace ns s E idx < matCount ns := by
    rw [blockPlace]; split <;> omega
  generalize blockPlace ns s E idx = q at *
  have g : c * u + b < E := by rw [hE]; nlinarith
  have g0 : 0 ≤ c * u + b := by nlinarith
  constructor <;> nlinarith

theorem block_split {ns : List Int} (h1 : ∀ n ∈ ns, 1 ≤ n) (s : Int) {E u ch : Int} (hE : E = u * ch) (hu : 0 < u)
    (hc : 0 < ch) (k : Int) (k0 : 0 ≤ k) (k1 : k < E * matCount ns) :
    ∃ idx c b, MatIndex ns idx ∧ 0 ≤ c ∧ c < ch ∧ 0 ≤ b ∧ b < u ∧ k = E * blockPlace ns s E idx + c * u + b := by
  have hp : 0 < E := by rw [hE]; exact mul_pos hu hc
  have h0 : ∀ n ∈ ns, 0 ≤ n := fun n hn => by have := h1 n hn; omega
  have hN := matCount_pos h1
  have q0 : 0 ≤ k / E := Int.ediv_nonneg (by omega) hp.le
  have q1 : k / E < matCount ns := Int.ediv_lt_of_lt_mul hp (by linarith [mul_comm E (matCount ns)])
  have r0 := Int.emod_nonneg k hp.ne'
  have r1 := Int.emod_lt_of_pos k hp
  have e1 := Int.emod_add_mul_ediv k E
  have e2 := Int.emod_add_mul_ediv (k % E) u
  have sp := unrank_spec h0 (r := if s = E then k / E else matCount ns - 1 - k / E) (by split <;> omega)
    (by split <;> omega)
  refine ⟨_, k % E / u, k % E % u, sp.1, Int.ediv_nonneg r0 hu.le,
    Int.ediv_lt_of_lt_mul hu (by rw [mul_comm, ← hE]; exact r1), Int.emod_nonneg _ hu.ne', Int.emod_lt_of_pos _ hu, ?_⟩
  rw [blockPlace, sp.2]
  have : (if s = E then (if s = E then k / E else matCount ns - 1 - k / E) else
      matCount ns - 1 - (if s = E then k / E else matCount ns - 1 - k / E)) = k / E := by
    split <;> omega
  rw [this]
  linarith [mul_comm u (k % E / u)]

theorem byte_ptr (m : Mat) (idx : List Int) (c b : Int) : matByte m idx c b = ptr m idx 0 + c * m.unit + b := by
  rw [matByte, ptr_off, ptr_off]; ring

/-- C104: the bytes of an array that `is_continuous` are exactly the `memory_size` bytes from `memory_data` on. -/
theorem C104_block (m : Mat) (hne : m.dims ≠ []) (hc : 0 < m.chan) (h1 : ∀ n ∈ matSizes m, 1 ≤ n)
    (hcon : isContinuous m = true) (x : Int) :
    MatHas m x ↔ memoryData m ≤ x ∧ x < memoryData m + memorySize m := by
  obtain ⟨s, hs, hr⟩ := (C103_continuous_partial m hne hc).1 hcon
  rw [memorySize, elementNumber_eq]
  constructor
  · rintro ⟨idx, c, b, hi, c0, c1, b0, b1, rfl⟩
    rw [byte_ptr, block_key hc h1 hs hr idx hi]
    have := block_bound s (E := m.elemSize) rfl (unit_pos m) hc hi c0 c1 b0 b1
    omega
  · rintro ⟨x0, x1⟩
    obtain ⟨idx, c, b, hi, c0, c1, b0, b1, e⟩ := block_split h1 s (E := m.elemSize) rfl (unit_pos m) hc
      (x - memoryData m) (by omega) (by omega)
    refine ⟨idx, c, b, hi, c0, c1, b0, b1, ?_⟩
    rw [byte_ptr, block_key hc h1 hs hr idx hi]
    omega

example : ∃ m : Mat, m.dims ≠ [] ∧ 0 < m.chan ∧ (∀ n ∈ matSizes m, 1 ≤ n) ∧ isContinuous m = true ∧ memorySize m = 72 :=
  ⟨⟨66, [⟨3, -24⟩, ⟨4, -6⟩], 2, 3⟩, by decide, by decide, by decide, by decide, by decide⟩

/-! ### C105: the element iterator -/

/-- The property: a loop over `mt_array_element_iterator` visits every element once, in row-major order, and ends. -/
def IteratorVisits (m : Mat) : Prop :=
  ∀ f : Nat, matCount (matSizes m) ≤ f →
    iterPtrs f m.data m.dims = (matAll (matSizes m)).map fun idx => ptr m idx 0

/-- C105: for arrays with elements. -/
theorem C105_iterator_partial (m : Mat) (hne : m.dims ≠ []) (h1 : ∀ n ∈ matSizes m, 1 ≤ n) : IteratorVisits m := by
  intro f hf
  rw [iterPtrs_eq _ _ hne (fun d hd => h1 _ (List.mem_map.2 ⟨d, hd, rfl⟩)) _ (by simp only [matSizes] at hf; omega)]
  apply List.map_congr_left
  intro idx _
  rw [ptr_off]; simp

/-- What row-major order is: all indices, none twice, places in ascending order. -/
theorem C105_order (ns : List Int) (h : ∀ n ∈ ns, 0 ≤ n) :
    (∀ idx, idx ∈ matAll ns ↔ MatIndex ns idx) ∧ (matAll ns).map (matRank ns) =
      (List.range (matCount ns).toNat).map (fun (r : Nat) => (r : Int)) := by
  refine ⟨fun idx => mem_matAll h, ?_⟩
  rw [matAll_eq ns h, List.map_map]
  apply List.map_congr_left
  intro r hr
  have := List.mem_range.1 hr
  exact (unrank_spec h (r := (r : Int)) (by omega) (by omega)).2

example : ∀ n ∈ [2, 0, 3], (0 : Int) ≤ n := by decide

example : ∃ m : Mat, m.dims ≠ [] ∧ ∀ n ∈ matSizes m, 1 ≤ n := ⟨create 0 [2, 1, 3] 0 1, by decide, by decide⟩

/-- An array without elements: the first call of `data()` returns a pointer and the loop never ends. -/
theorem not_C105_empty (m : Mat) (hne : m.dims ≠ []) (h0 : ∀ n ∈ matSizes m, 0 ≤ n) (hz : 0 ∈ matSizes m) :
    matAll (matSizes m) = [] ∧ ∀ f : Nat, (iterPtrs f m.data m.dims).length = f + 1 := by
  have hC : matCount (matSizes m) = 0 := by
    generalize matSizes m = ns at hz
    clear h0
    induction ns with
    | nil => simp at hz
    | cons n ns ih =>
      rw [matCount]
      rcases List.mem_cons.1 hz with e | e
      · rw [← e, zero_mul]
      · rw [ih e, mul_zero]
  refine ⟨by rw [matAll_eq _ h0, hC]; rfl, fun f => ?_⟩
  have hi : iterInit m.data m.dims ≠ [] := by simp [iterInit, hne]
  rw [iterPtrs, List.getLast?_eq_some_getLast hi]
  simp only [List.length_cons]
  rw [foldl_size, one_mul, show m.dims.map Dim.size = matSizes m from rfl, hC, iterRun_endless _ _ _ _ (by omega) hi]

example : ∃ m : Mat, m.dims ≠ [] ∧ (∀ n ∈ matSizes m, 0 ≤ n) ∧ 0 ∈ matSizes m :=
  ⟨create 0 [2, 0] 0 1, by decide, by decide, by decide⟩

end Verif.Props
