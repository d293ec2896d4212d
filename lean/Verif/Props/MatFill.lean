import Verif.Props.MatCopy

/-!
# C108, C109: filling arrays, `is_zero`
-/

namespace Verif.Props

open Verif.Spec Verif.Mat

/-! ### C108: `set(value)` -/

/-- Channel `c` of every element holds `vals c`, and no other byte changed. -/
def MatFilled (H H' : Heap) (m : Mat) (vals : Nat → Int) : Prop :=
  (∀ idx (c b : Nat), MatIndex (matSizes m) idx → (c : Int) < m.chan → (b : Int) < m.unit →
    H' (matByte m idx c b) = some (byteOf (vals c) b)) ∧ ∀ a, ¬ MatHas m a → H' a = H a

/-- What a list of writes that fills `m` must be. -/
def IsFill (m : Mat) (vals : Nat → Int) (l : List (Int × Nat)) : Prop :=
  ∀ x, x ∈ l ↔ ∃ idx, ∃ c b : Nat, MatIndex (matSizes m) idx ∧ (c : Int) < m.chan ∧ (b : Int) < m.unit ∧
    x = (matByte m idx c b, byteOf (vals c) b)

theorem mem_elemWrites (u ch : Nat) (vals : Nat → Int) (p : Int) (x : Int × Nat) :
    x ∈ elemWrites u ch vals p ↔ ∃ c b : Nat, c < ch ∧ b < u ∧ x = (p + c * u + b, byteOf (vals c) b) := by
  rw [elemWrites, List.mem_flatMap]
  constructor
  · rintro ⟨c, hc, h⟩
    obtain ⟨b, hb, e⟩ := List.mem_map.1 h
    exact ⟨c, b, List.mem_range.1 hc, List.mem_range.1 hb, e.symm⟩
  · rintro ⟨c, b, hc, hb, e⟩
    exact ⟨c, List.mem_range.2 hc, List.mem_map.2 ⟨b, List.mem_range.2 hb, e.symm⟩⟩

theorem isFill_of_elems {m : Mat} {vals : Nat → Int} {l : List (Int × Nat)} (hc : 0 < m.chan)
    (h : ∀ x, x ∈ l ↔ ∃ idx, MatIndex (matSizes m) idx ∧ x ∈ elemWrites m.unit.toNat m.chan.toNat vals (ptr m idx 0)) :
    IsFill m vals l := by
  intro x
  have hu := unit_nat m
  rw [h]
  constructor
  · rintro ⟨idx, hi, hx⟩
    obtain ⟨c, b, h1, h2, rfl⟩ := (mem_elemWrites _ _ _ _ _).1 hx
    exact ⟨idx, c, b, hi, by omega, by omega, by rw [byte_ptr, hu]⟩
  · rintro ⟨idx, c, b, hi, h1, h2, rfl⟩
    exact ⟨idx, hi, (mem_elemWrites _ _ _ _ _).2 ⟨c, b, by omega, by omega, by rw [byte_ptr, hu]⟩⟩

theorem byteOf_zero {v : Int} (h0 : 0 ≤ v) (h1 : v < 256) : byteOf v 0 = v.toNat := by
  rw [byteOf, pow_zero, Int.ediv_one, Int.emod_eq_of_lt h0 h1]

/-- What `set(size, value)` needs: integers, all in the range of the type. -/
structure FillOk (m : Mat) (size : Nat) (vals : Nat → Int) : Prop where
  depth : m.depth.val ≤ 7
  given : size = 0 ∨ m.chan ≤ size
  range : ∀ c : Nat, (c : Int) < m.chan → inRange m.depth (vals (if size = 0 then 0 else c)) = true

theorem fillPlan_spec {m : Mat} {size : Nat} {vals : Nat → Int} (hne : m.dims ≠ []) (hc : 0 < m.chan)
    (h1 : ∀ n ∈ matSizes m, 1 ≤ n) (am : Aligned m) (ok : FillOk m size vals)
    (h3 : m.dims.length = 3 → isContinuous m = true ∨ m.chan ≤ 4) (hs : m.depth = 1 → 0 ≤ vals 0) :
    ∃ l, fillPlan m size vals = some l ∧ IsFill m (fun c => vals (if size = 0 then 0 else c)) l := by
  have hcn : ((m.chan.toNat : Nat) : Int) = m.chan := Int.toNat_of_nonneg hc.le
  have h0 : ∀ n ∈ matSizes m, 0 ≤ n := fun n hn => by have := h1 n hn; omega
  have hN := matCount_pos h1
  obtain ⟨dm, hdm, lm, hlm, elm⟩ := aligned_step am
  have hav : assignValues m size vals = some fun c => vals (if size = 0 then 0 else c) := by
    rw [assignValues, if_neg (by have := ok.given; omega), if_pos]
    rw [List.all_eq_true]
    intro c hc'
    exact ok.range c (by have := List.mem_range.1 hc'; omega)
  rw [fillPlan, hav, hlm]
  simp only
  split
  · rename_i hcon
    obtain ⟨e, he, hde⟩ := (isContinuous_iff hne).1 hcon
    split
    · rename_i hms
      rw [canMemset, Bool.and_eq_true, Bool.or_eq_true, decide_eq_true_eq, decide_eq_true_eq] at hms
      have hrange := ok.range 0 (by omega)
      have hrange0 : inRange m.depth (vals 0) = true := by simpa using hrange
      have hu1 : m.unit = 1 := by
        have := hms.1
        rw [Mat.unit]
        generalize m.depth = d at this
        revert this; revert d; decide
      have hv : 0 ≤ vals 0 ∧ vals 0 < 256 := by
        have hd := hms.1
        have hdd : m.depth = 0 ∨ m.depth = 1 := by
          generalize m.depth = d at hd
          revert hd; revert d; decide
        rcases hdd with e0 | e1
        · rw [e0] at hrange0
          simp [inRange, depthSize] at hrange0
          exact hrange0
        · refine ⟨hs e1, ?_⟩
          rw [e1] at hrange0
          simp [inRange, depthSize] at hrange0
          omega
      rw [if_pos hv]
      refine ⟨_, rfl, fun x => ?_⟩
      have hall : ∀ c : Nat, (c : Int) < m.chan → vals (if size = 0 then 0 else c) = vals 0 := by
        intro c hc'
        split
        · rfl
        · rename_i hsz
          rcases hms.2 with h | h
          · have := ok.given
            have : c = 0 := by omega
            rw [this]
          · rw [List.all_eq_true] at h
            have := h c (List.mem_range.2 (by omega))
            simpa using (of_decide_eq_true this).symm
      rw [mem_loop1]
      have hblock := fun y => C104_block m hne hc h1 hcon y
      have hms0 : 0 ≤ memorySize m := by
        rw [memorySize, elementNumber_eq]
        exact mul_nonneg (elemSize_pos hc).le (by omega)
      constructor
      · rintro ⟨k, hk, hx⟩
        obtain ⟨idx, c, b, hi, c0, c1, b0, b1, e'⟩ := (hblock (memoryData m + k)).2 ⟨by omega, by omega⟩
        have hb : b = 0 := by omega
        subst hb
        refine ⟨idx, c.toNat, 0, hi, by omega, by omega, ?_⟩
        simp only
        rw [List.mem_singleton.1 hx, hall _ (by omega), byteOf_zero hv.1 hv.2, mul_one, Int.toNat_of_nonneg c0, e']
        rfl
      · rintro ⟨idx, c, b, hi, c1, b1, rfl⟩
        have hb : b = 0 := by omega
        subst hb
        have := (hblock (matByte m idx c 0)).1 ⟨idx, c, 0, hi, by omega, c1, by omega, by omega, rfl⟩
        refine ⟨(matByte m idx c 0 - memoryData m).toNat, by omega, ?_⟩
        simp only
        rw [List.mem_singleton, hall c c1, byteOf_zero hv.1 hv.2, mul_one, Int.toNat_of_nonneg (by omega)]
        simp
    · refine ⟨_, rfl, isFill_of_elems hc fun x => ?_⟩
      have e1 : dm.step = e := autoStep_last e _ dm (by rw [← hde]; exact hdm)
      have hptr : ∀ idx, MatIndex (matSizes m) idx → ptr m idx 0 = m.data + matRank (matSizes m) idx * e := by
        intro idx hi
        rw [ptr_off]
        have := off_autoStep e (matSizes m) idx (MatIndex.length hi)
        rw [← hde] at this
        rw [this]; ring
      rw [mem_loop1, unit_nat, elm, e1, elementNumber_eq]
      constructor
      · rintro ⟨k, hk, hx⟩
        have sp := unrank_spec h0 (r := (k : Int)) (by omega) (by omega)
        refine ⟨_, sp.1, ?_⟩
        rw [hptr _ sp.1, sp.2]
        exact hx
      · rintro ⟨idx, hi, hx⟩
        have bd := matRank_bound hi
        refine ⟨(matRank (matSizes m) idx).toNat, by omega, ?_⟩
        rw [Int.toNat_of_nonneg bd.1, ← hptr idx hi]
        exact hx
  · rename_i hcon
    split
    · rename_i d0 d1 hm
      refine ⟨_, rfl, isFill_of_elems hc fun x => ?_⟩
      have l1 : lm * m.unit = d1.step := by rw [elm]; rw [hm] at hdm; simp at hdm; rw [hdm]
      have hb : ∀ i j, ptr m [i, j] 0 = m.data + i * d0.step + j * d1.step := by
        intro i j; simp only [ptr_off, hm, off]; ring
      have hms : matSizes m = [d0.size, d1.size] := by rw [matSizes, hm]; rfl
      rw [mem_loop1, hms, unit_nat, l1]
      constructor
      · rintro ⟨i, i1, h⟩
        obtain ⟨j, j1, h⟩ := (mem_loop1 _ _ _ _ _).1 h
        exact ⟨[i, j], matIndex_cons.2 ⟨⟨by omega, by omega⟩, matIndex_cons.2 ⟨⟨by omega, by omega⟩, matIndex_nil⟩⟩,
          by rw [hb]; exact h⟩
      · rintro ⟨idx, hi, h⟩
        obtain ⟨i, j, rfl, i0, i1, j0, j1⟩ := matIndex2 hi
        refine ⟨i.toNat, by omega, (mem_loop1 _ _ _ _ _).2 ⟨j.toNat, by omega, ?_⟩⟩
        rw [Int.toNat_of_nonneg i0, Int.toNat_of_nonneg j0, ← hb]
        exact h
    · rename_i d0 d1 d2 hm
      have hch : m.chan ≤ 4 := by
        rcases h3 (by rw [hm]; rfl) with h | h
        · exact absurd h hcon
        · exact h
      rw [if_pos (by omega)]
      refine ⟨_, rfl, isFill_of_elems hc fun x => ?_⟩
      have l1 : lm * m.unit = d2.step := by rw [elm]; rw [hm] at hdm; simp at hdm; rw [hdm]
      have hb : ∀ k i j, ptr m [k, i, j] 0 = m.data + k * d0.step + i * d1.step + j * d2.step := by
        intro k i j; simp only [ptr_off, hm, off]; ring
      have hms : matSizes m = [d0.size, d1.size, d2.size] := by rw [matSizes, hm]; rfl
      rw [mem_loop1, hms, unit_nat, l1]
      constructor
      · rintro ⟨k, k1, h⟩
        obtain ⟨i, i1, h⟩ := (mem_loop1 _ _ _ _ _).1 h
        obtain ⟨j, j1, h⟩ := (mem_loop1 _ _ _ _ _).1 h
        exact ⟨[k, i, j], matIndex_cons.2 ⟨⟨by omega, by omega⟩, matIndex_cons.2 ⟨⟨by omega, by omega⟩,
          matIndex_cons.2 ⟨⟨by omega, by omega⟩, matIndex_nil⟩⟩⟩, by rw [hb]; exact h⟩
      · rintro ⟨idx, hi, h⟩
        obtain ⟨k, i, j, rfl, k0, k1, i0, i1, j0, j1⟩ := matIndex3 hi
        refine ⟨k.toNat, by omega, (mem_loop1 _ _ _ _ _).2 ⟨i.toNat, by omega, (mem_loop1 _ _ _ _ _).2
          ⟨j.toNat, by omega, ?_⟩⟩⟩
        rw [Int.toNat_of_nonneg i0, Int.toNat_of_nonneg j0, Int.toNat_of_nonneg k0, ← hb]
        exact h
    · refine ⟨_, rfl, isFill_of_elems hc fun x => ?_⟩
      rw [iterAll_eq m hne h1, List.flatMap_map, List.mem_flatMap]
      constructor
      · rintro ⟨idx, hi, h⟩; exact ⟨idx, (mem_matAll h0).1 hi, h⟩
      · rintro ⟨idx, hi, h⟩; exact ⟨idx, (mem_matAll h0).2 hi, h⟩

/-- The property of `set(size, value)` for integers in the range of the type. -/
def FillSets : Prop :=
  ∀ (H : Heap) (m : Mat) (size : Nat) (vals : Nat → Int), m.dims ≠ [] → 0 < m.chan → (∀ n ∈ matSizes m, 1 ≤ n) →
    Aligned m → MatLive H m → MatApart m → FillOk m size vals →
    ∃ H', setValue H m size vals = some H' ∧ MatFilled H H' m fun c => vals (if size = 0 then 0 else c)

/-- C108: holds except for three dimensions with gaps and more than four channels, and for negative `i8`. -/
theorem C108_fill_partial (H : Heap) (m : Mat) (size : Nat) (vals : Nat → Int) (hne : m.dims ≠ []) (hc : 0 < m.chan)
    (h1 : ∀ n ∈ matSizes m, 1 ≤ n) (am : Aligned m) (lm : MatLive H m) (ap : MatApart m) (ok : FillOk m size vals)
    (h3 : m.dims.length = 3 → isContinuous m = true ∨ m.chan ≤ 4) (hs : m.depth = 1 → 0 ≤ vals 0) :
    ∃ H', setValue H m size vals = some H' ∧ MatFilled H H' m fun c => vals (if size = 0 then 0 else c) := by
  obtain ⟨l, hl, hp⟩ := fillPlan_spec hne hc h1 am ok h3 hs
  obtain ⟨H', e, p1, p2⟩ := writeAll_spec l H
    (by
      intro x hx
      obtain ⟨idx, c, b, hi, c1, b1, rfl⟩ := (hp x).1 hx
      exact lm _ ⟨idx, c, b, hi, by omega, c1, by omega, b1, rfl⟩)
    (by
      intro x hx y hy e
      obtain ⟨idx, c, b, hi, c1, b1, rfl⟩ := (hp x).1 hx
      obtain ⟨idx', c', b', hi', c1', b1', rfl⟩ := (hp y).1 hy
      obtain ⟨_, hcc, hbb⟩ := ap idx c b idx' c' b' hi hi' (by omega) c1 (by omega) c1' (by omega) b1 (by omega) b1' e
      have : c = c' := by omega
      have : b = b' := by omega
      subst_vars
      rfl)
  refine ⟨H', by rw [setValue, hl]; exact e, ?_, ?_⟩
  · intro idx c b hi c1 b1
    exact p1 _ ((hp _).2 ⟨idx, c, b, hi, c1, b1, rfl⟩)
  · intro a ha
    apply p2
    intro x hx e
    obtain ⟨idx, c, b, hi, c1, b1, rfl⟩ := (hp x).1 hx
    exact ha ⟨idx, c, b, hi, by omega, c1, by omega, b1, e.symm⟩

example : ∃ (H : Heap) (m : Mat) (size : Nat) (vals : Nat → Int), m.dims ≠ [] ∧ 0 < m.chan ∧ (∀ n ∈ matSizes m, 1 ≤ n) ∧
    Aligned m ∧ MatLive H m ∧ MatApart m ∧ FillOk m size vals ∧ (m.dims.length = 3 → isContinuous m = true ∨ m.chan ≤ 4) ∧
    (m.depth = 1 → 0 ≤ vals 0) := by
  refine ⟨fun _ => some 7, create 0 [4, 5] 3 3, 4, fun c => 10 * c - 5, by decide, by decide, by decide,
    aligned_create _ _ _ _ (by decide), fun _ _ => by simp, (C102_create 0 [4, 5] 3 3 (by decide)).2.1,
    ⟨by decide, Or.inr (by decide), ?_⟩, by decide, by decide⟩
  intro c hc
  have : (create 0 [4, 5] 3 3).chan = 3 := rfl
  have : c = 0 ∨ c = 1 ∨ c = 2 := by omega
  rcases this with rfl | rfl | rfl <;> decide

/-- Three dimensions, five channels, a part of a larger array: the pointer is moved inside the loop over the channels, and
bytes outside of the array are written. -/
theorem not_C108_three : ¬ FillSets := by
  intro h
  have hp : ∀ x, MatHas (⟨0, [⟨1, 60⟩, ⟨1, 20⟩, ⟨2, 5⟩], 0, 5⟩ : Mat) x → 0 ≤ x ∧ x < 10 := by
    rintro x ⟨idx, c, b, hi, c0, c1, b0, b1, rfl⟩
    obtain ⟨k, i, j, rfl, k0, k1, i0, i1, j0, j1⟩ := matIndex3 hi
    simp only [byte_ptr, ptr_off, off, Mat.unit, show depthSize 0 = 1 from rfl] at *
    omega
  obtain ⟨H', e, _⟩ := h (fun x => if 0 ≤ x ∧ x < 10 then some 0 else none) ⟨0, [⟨1, 60⟩, ⟨1, 20⟩, ⟨2, 5⟩], 0, 5⟩ 0 (fun _ => 7)
    (by decide) (by decide) (by decide) ⟨⟨2, 5⟩, 5, rfl, by decide⟩
    (by intro x hx; have := hp x hx; simp only; rw [if_pos this]; simp)
    (by
      intro idx c b idx' c' b' hi hi' c0 c1 c0' c1' b0 b1 b0' b1' e
      obtain ⟨k, i, j, rfl, k0, k1, i0, i1, j0, j1⟩ := matIndex3 hi
      obtain ⟨k', i', j', rfl, k0', k1', i0', i1', j0', j1'⟩ := matIndex3 hi'
      simp only [byte_ptr, ptr_off, off, Mat.unit, show depthSize 0 = 1 from rfl] at *
      have : k = k' := by omega
      have : i = i' := by omega
      have : j = j' := by omega
      subst_vars
      simp only [true_and]
      omega)
    ⟨by decide, Or.inl rfl, fun _ _ => by decide⟩
  revert e
  have : setValue (fun x => if 0 ≤ x ∧ x < 10 then some 0 else none) ⟨0, [⟨1, 60⟩, ⟨1, 20⟩, ⟨2, 5⟩], 0, 5⟩ 0 (fun _ => 7) =
      none := by decide
  rw [this]
  simp

/-- A negative value for a continuous array of `i8` goes through `(u8)values[0]`, which is undefined for negative numbers. -/
theorem not_C108_negative (H : Heap) : inRange 1 (-1) = true ∧ setValue H (create 0 [2, 2] 1 1) 0 (fun _ => -1) = none := by
  constructor
  · decide
  · rfl

/-- A scalar has four values: with five channels the fifth is read out of bounds. -/
theorem not_C108_scalar (H : Heap) (vals : Nat → Int) : setValue H (create 0 [2, 2] 0 5) 4 vals = none := by
  rw [setValue, fillPlan, assignValues, if_pos (by decide)]
  rfl

/-! ### C109: `is_zero` -/

/-- The property: `is_zero` tells whether all elements are 0. -/
def ZeroTells (H : Heap) (m : Mat) : Prop :=
  ∃ r, isZero H m = some r ∧ (r = true ↔ ∀ a, MatHas m a → H a = some 0)

theorem zeroBytes_spec (H : Heap) (n : Nat) (p : Int) (h : ∀ k : Nat, k < n → H (p + k) ≠ none) :
    ∃ r, zeroBytes H n p = some r ∧ (r = true ↔ ∀ k : Nat, k < n → H (p + k) = some 0) := by
  induction n generalizing p with
  | zero => exact ⟨true, rfl, by simp⟩
  | succ n ih =>
    have h0 := h 0 (by omega)
    obtain ⟨v, hv⟩ := Option.ne_none_iff_exists'.1 h0
    rw [show p + ((0 : Nat) : Int) = p by simp] at hv
    obtain ⟨r, e, hr⟩ := ih (p + 1) (by
      intro k hk
      have := h (k + 1) (by omega)
      rw [show p + 1 + (k : Int) = p + ((k + 1 : Nat) : Int) by push_cast; ring]
      exact this)
    rw [zeroBytes, hv]
    simp only
    by_cases hz : v = 0
    · subst hz
      refine ⟨r, by rw [if_neg (by simp)]; exact e, ?_⟩
      rw [hr]
      constructor
      · intro hh k hk
        cases k with
        | zero => simpa using hv
        | succ k =>
          rw [show p + ((k + 1 : Nat) : Int) = p + 1 + (k : Int) by push_cast; ring]
          exact hh k (by omega)
      · intro hh k hk
        rw [show p + 1 + (k : Int) = p + ((k + 1 : Nat) : Int) by push_cast; ring]
        exact hh (k + 1) (by omega)
    · refine ⟨false, by rw [if_pos hz], ?_⟩
      simp only [Bool.false_eq_true, false_iff]
      intro hh
      have := hh 0 (by omega)
      rw [show p + ((0 : Nat) : Int) = p by simp, hv] at this
      exact hz (Option.some.inj this)

theorem zeroLoop_spec (H : Heap) (n : Nat) (ps : List Int) (h : ∀ p ∈ ps, ∀ k : Nat, k < n → H (p + k) ≠ none) :
    ∃ r, zeroLoop H n ps = some r ∧ (r = true ↔ ∀ p ∈ ps, ∀ k : Nat, k < n → H (p + k) = some 0) := by
  induction ps with
  | nil => exact ⟨true, rfl, by simp⟩
  | cons p ps ih =>
    obtain ⟨r, e, hr⟩ := ih fun q hq => h q (by simp [hq])
    obtain ⟨t, e', ht⟩ := zeroBytes_spec H n p (h p (by simp))
    rw [zeroLoop, e']
    cases t with
    | false =>
      refine ⟨false, rfl, ?_⟩
      simp only [Bool.false_eq_true, false_iff] at ht ⊢
      intro hh
      exact ht (hh p (by simp))
    | true =>
      refine ⟨r, e, ?_⟩
      rw [hr]
      simp only [List.mem_cons, forall_eq_or_imp]
      exact ⟨fun hh => ⟨ht.1 rfl, hh⟩, fun hh => hh.2⟩

/-- C109: right for depths of one byte. -/
theorem C109_zero_partial (H : Heap) (m : Mat) (hne : m.dims ≠ []) (hc : 0 < m.chan) (h1 : ∀ n ∈ matSizes m, 1 ≤ n)
    (lm : MatLive H m) (hu : m.unit = 1) : ZeroTells H m := by
  have h0 : ∀ n ∈ matSizes m, 0 ≤ n := fun n hn => by have := h1 n hn; omega
  have hb : ∀ idx c, matByte m idx c 0 = ptr m idx 0 + c := by intro idx c; rw [byte_ptr, hu]; ring
  obtain ⟨r, e, hr⟩ := zeroLoop_spec H m.chan.toNat (iterAll m) (by
    intro p hp k hk
    rw [iterAll_eq m hne h1] at hp
    obtain ⟨idx, hi, rfl⟩ := List.mem_map.1 hp
    exact lm _ ⟨idx, k, 0, (mem_matAll h0).1 hi, by omega, by omega, by omega, by omega, (hb idx k).symm⟩)
  refine ⟨r, e, ?_⟩
  rw [hr, iterAll_eq m hne h1]
  constructor
  · rintro hh a ⟨idx, c, b, hi, c0, c1, b0, b1, rfl⟩
    have : b = 0 := by omega
    subst this
    have := hh _ (List.mem_map.2 ⟨idx, (mem_matAll h0).2 hi, rfl⟩) c.toNat (by omega)
    rw [hb]
    rwa [Int.toNat_of_nonneg c0] at this
  · intro hh p hp k hk
    obtain ⟨idx, hi, rfl⟩ := List.mem_map.1 hp
    exact hh _ ⟨idx, k, 0, (mem_matAll h0).1 hi, by omega, by omega, by omega, by omega, (hb idx k).symm⟩

example : ∃ (H : Heap) (m : Mat), m.dims ≠ [] ∧ 0 < m.chan ∧ (∀ n ∈ matSizes m, 1 ≤ n) ∧ MatLive H m ∧ m.unit = 1 :=
  ⟨fun _ => some 0, create 0 [4, 5] 1 3, by decide, by decide, by decide, fun _ _ => by simp, by decide⟩

/-- An array of `u16` with all elements 256 is called zero: of each element as many bytes are looked at as it has channels. -/
theorem not_C109_zero : ∃ (H : Heap) (m : Mat), m.dims ≠ [] ∧ 0 < m.chan ∧ (∀ n ∈ matSizes m, 1 ≤ n) ∧ MatLive H m ∧
    isZero H m = some true ∧ ∀ idx, MatIndex (matSizes m) idx → matNat H m idx 0 = some 256 := by
  refine ⟨fun x => some (x % 2).toNat, create 0 [2, 2] 2 1, by decide, by decide, by decide, fun _ _ => by simp, by decide, ?_⟩
  intro idx hi
  have := (mem_matAll (ns := [2, 2]) (by decide)).2 (show MatIndex [2, 2] idx from hi)
  revert this
  rw [show matAll [2, 2] = [[0, 0], [0, 1], [1, 0], [1, 1]] by decide]
  intro h
  simp only [List.mem_cons, List.not_mem_nil, or_false] at h
  rcases h with rfl | rfl | rfl | rfl <;> decide

end Verif.Props
