import Verif.Proof.MatRun
import Verif.Props.MatRun

/-!
# Copying, filling and comparing arrays: what the loops touch
-/

namespace Verif.Mat

open Verif.Spec Verif.Props

/-! ### Loops -/

theorem mem_loop2 {α : Type} (f : Int → Int → List α) (dp dq : Int) (x : α) (n : Nat) (p q : Int) :
    x ∈ loop2 f dp dq n p q ↔ ∃ k : Nat, k < n ∧ x ∈ f (p + k * dp) (q + k * dq) := by
  induction n generalizing p q with
  | zero => simp [loop2]
  | succ n ih =>
    rw [loop2, List.mem_append, ih]
    constructor
    · rintro (h | ⟨k, hk, h⟩)
      · exact ⟨0, by omega, by simpa using h⟩
      · refine ⟨k + 1, by omega, ?_⟩
        rw [show p + ((k + 1 : Nat) : Int) * dp = p + dp + k * dp by push_cast; ring,
          show q + ((k + 1 : Nat) : Int) * dq = q + dq + k * dq by push_cast; ring]
        exact h
    · rintro ⟨k, hk, h⟩
      cases k with
      | zero => left; simpa using h
      | succ k =>
        right
        refine ⟨k, by omega, ?_⟩
        rw [show p + ((k + 1 : Nat) : Int) * dp = p + dp + k * dp by push_cast; ring,
          show q + ((k + 1 : Nat) : Int) * dq = q + dq + k * dq by push_cast; ring] at h
        exact h

theorem mem_loop1 {α : Type} (f : Int → List α) (dp : Int) (x : α) (n : Nat) (p : Int) :
    x ∈ loop1 f dp n p ↔ ∃ k : Nat, k < n ∧ x ∈ f (p + k * dp) := by
  induction n generalizing p with
  | zero => simp [loop1]
  | succ n ih =>
    rw [loop1, List.mem_append, ih]
    constructor
    · rintro (h | ⟨k, hk, h⟩)
      · exact ⟨0, by omega, by simpa using h⟩
      · refine ⟨k + 1, by omega, ?_⟩
        rw [show p + ((k + 1 : Nat) : Int) * dp = p + dp + k * dp by push_cast; ring]
        exact h
    · rintro ⟨k, hk, h⟩
      cases k with
      | zero => left; simpa using h
      | succ k =>
        right
        refine ⟨k, by omega, ?_⟩
        rw [show p + ((k + 1 : Nat) : Int) * dp = p + dp + k * dp by push_cast; ring] at h
        exact h

theorem mem_bytePairs (n : Nat) (p q : Int) (x : Int × Int) :
    x ∈ bytePairs n p q ↔ ∃ k : Int, 0 ≤ k ∧ k < n ∧ x = (p + k, q + k) := by
  rw [bytePairs, mem_loop2]
  constructor
  · rintro ⟨k, hk, h⟩
    exact ⟨k, by omega, by omega, by simpa using h⟩
  · rintro ⟨k, k0, k1, h⟩
    refine ⟨k.toNat, by omega, ?_⟩
    rw [h, Int.toNat_of_nonneg k0]; simp

theorem mem_chanPairs (u ch : Nat) (p q : Int) (x : Int × Int) :
    x ∈ chanPairs u ch p q ↔ ∃ c b : Int, 0 ≤ c ∧ c < ch ∧ 0 ≤ b ∧ b < u ∧ x = (p + c * u + b, q + c * u + b) := by
  rw [chanPairs, mem_loop2]
  constructor
  · rintro ⟨c, hc, h⟩
    obtain ⟨b, b0, b1, e⟩ := (mem_bytePairs _ _ _ _).1 h
    exact ⟨c, b, by omega, by omega, b0, b1, e⟩
  · rintro ⟨c, b, c0, c1, b0, b1, e⟩
    refine ⟨c.toNat, by omega, (mem_bytePairs _ _ _ _).2 ⟨b, b0, b1, ?_⟩⟩
    rw [e, Int.toNat_of_nonneg c0]

/-! ### Heaps -/

theorem copyPairs_spec (l : List (Int × Int)) (H : Heap) (ha : ∀ x ∈ l, H x.1 ≠ none ∧ H x.2 ≠ none)
    (hd : ∀ x ∈ l, ∀ y ∈ l, x.1 ≠ y.2) (hf : ∀ x ∈ l, ∀ y ∈ l, x.1 = y.1 → x.2 = y.2) :
    ∃ H', copyPairs l H = some H' ∧ (∀ x ∈ l, H' x.1 = H x.2) ∧ ∀ z, (∀ x ∈ l, x.1 ≠ z) → H' z = H z := by
  induction l generalizing H with
  | nil => exact ⟨H, rfl, by simp, fun _ _ => rfl⟩
  | cons x l ih =>
    obtain ⟨a, b⟩ := x
    obtain ⟨h1, h2⟩ := ha (a, b) (by simp)
    obtain ⟨v, hv⟩ := Option.ne_none_iff_exists'.1 h2
    obtain ⟨w, hw⟩ := Option.ne_none_iff_exists'.1 h1
    simp only at hv hw
    have hwr : write H a v = some fun x => if x = a then some v else H x := by rw [write, hw]
    obtain ⟨H', e, p1, p2⟩ := ih (fun x => if x = a then some v else H x)
      (by
        intro y hy
        have := ha y (by simp [hy])
        constructor
        · split
          · simp
          · exact this.1
        · split
          · simp
          · exact this.2)
      (fun x hx y hy => hd x (by simp [hx]) y (by simp [hy])) (fun x hx y hy => hf x (by simp [hx]) y (by simp [hy]))
    refine ⟨H', ?_, ?_, ?_⟩
    · rw [copyPairs, hv]; simp only; rw [hwr]; exact e
    · intro x hx
      rcases List.mem_cons.1 hx with rfl | hx
      · simp only
        by_cases hm : ∃ y ∈ l, y.1 = a
        · obtain ⟨y, hy, hya⟩ := hm
          have h3 := p1 y hy
          have h4 := hf y (by simp [hy]) (a, b) (by simp) hya
          simp only at h4
          rw [hya, h4] at h3
          rw [h3]
          rw [if_neg (fun h => hd (a, b) (by simp) (a, b) (by simp) h.symm)]
        · rw [p2 a (fun y hy e => hm ⟨y, hy, e⟩)]
          simp only [if_true]
          exact hv.symm
      · rw [p1 x hx]
        rw [if_neg (fun h => hd (a, b) (by simp) x (by simp [hx]) h.symm)]
    · intro z hz
      rw [p2 z (fun x hx => hz x (by simp [hx]))]
      rw [if_neg (fun h => hz (a, b) (by simp) h.symm)]

theorem writeAll_spec (l : List (Int × Nat)) (H : Heap) (ha : ∀ x ∈ l, H x.1 ≠ none)
    (hf : ∀ x ∈ l, ∀ y ∈ l, x.1 = y.1 → x.2 = y.2) :
    ∃ H', writeAll l H = some H' ∧ (∀ x ∈ l, H' x.1 = some x.2) ∧ ∀ z, (∀ x ∈ l, x.1 ≠ z) → H' z = H z := by
  induction l generalizing H with
  | nil => exact ⟨H, rfl, by simp, fun _ _ => rfl⟩
  | cons x l ih =>
    obtain ⟨a, v⟩ := x
    have h1 := ha (a, v) (by simp)
    obtain ⟨w, hw⟩ := Option.ne_none_iff_exists'.1 h1
    simp only at hw
    have hwr : write H a v = some fun x => if x = a then some v else H x := by rw [write, hw]
    obtain ⟨H', e, p1, p2⟩ := ih (fun x => if x = a then some v else H x)
      (by
        intro y hy
        have := ha y (by simp [hy])
        split
        · simp
        · exact this)
      (fun x hx y hy => hf x (by simp [hx]) y (by simp [hy]))
    refine ⟨H', ?_, ?_, ?_⟩
    · rw [writeAll, hwr]; exact e
    · intro x hx
      rcases List.mem_cons.1 hx with rfl | hx
      · by_cases hm : ∃ y ∈ l, y.1 = a
        · obtain ⟨y, hy, hya⟩ := hm
          have h3 := p1 y hy
          rw [hya] at h3
          rw [h3, hf y (by simp [hy]) (a, v) (by simp) hya]
        · rw [p2 a (fun y hy e => hm ⟨y, hy, e⟩)]
          simp
      · exact p1 x hx
    · intro z hz
      rw [p2 z (fun x hx => hz x (by simp [hx]))]
      rw [if_neg (fun h => hz (a, v) (by simp) h.symm)]

theorem cmpPairs_spec (l : List (Int × Int)) (H : Heap) (ha : ∀ x ∈ l, H x.1 ≠ none ∧ H x.2 ≠ none) :
    ∃ r, cmpPairs l H = some r ∧ (r = true ↔ ∀ x ∈ l, H x.1 = H x.2) := by
  induction l with
  | nil => exact ⟨true, rfl, by simp⟩
  | cons x l ih =>
    obtain ⟨a, b⟩ := x
    obtain ⟨h1, h2⟩ := ha (a, b) (by simp)
    obtain ⟨v, hv⟩ := Option.ne_none_iff_exists'.1 h2
    obtain ⟨w, hw⟩ := Option.ne_none_iff_exists'.1 h1
    simp only at hv hw
    obtain ⟨r, e, hr⟩ := ih fun x hx => ha x (by simp [hx])
    rw [cmpPairs, hv, hw]
    simp only
    by_cases h : w = v
    · subst h
      refine ⟨r, by rw [if_neg (by simp)]; exact e, ?_⟩
      rw [hr]
      simp [hv, hw]
    · refine ⟨false, by rw [if_pos h], ?_⟩
      simp only [Bool.false_eq_true, List.mem_cons, forall_eq_or_imp, false_iff, not_and]
      intro h'
      rw [hv, hw] at h'
      exact absurd (Option.some.inj h') h

/-! ### `set(other)`: the bytes -/

/-- A multiple of the unit. -/
def Aligned (m : Mat) : Prop := ∃ d k, m.dims.getLast? = some d ∧ d.step = k * m.unit

theorem aligned_step {m : Mat} (h : Aligned m) : ∃ d, m.dims.getLast? = some d ∧
    ∃ l, lastStep m = some l ∧ l * m.unit = d.step := by
  obtain ⟨d, k, hd, e⟩ := h
  have hu := unit_pos m
  refine ⟨d, hd, k, ?_, e.symm⟩
  rw [lastStep, hd, Option.map_some, e, Int.mul_tdiv_cancel _ hu.ne']

theorem unit_nat (m : Mat) : ((m.unit.toNat : Nat) : Int) = m.unit := Int.toNat_of_nonneg (unit_pos m).le

theorem matIndex2 {h w : Int} {idx : List Int} (hi : MatIndex [h, w] idx) :
    ∃ i j, idx = [i, j] ∧ 0 ≤ i ∧ i < h ∧ 0 ≤ j ∧ j < w := by
  cases hi with
  | @cons _ i _ is hx hr =>
    cases hr with
    | @cons _ j _ js hy hs => cases hs; exact ⟨i, j, rfl, hx.1, hx.2, hy.1, hy.2⟩

theorem matIndex3 {p h w : Int} {idx : List Int} (hi : MatIndex [p, h, w] idx) :
    ∃ k i j, idx = [k, i, j] ∧ 0 ≤ k ∧ k < p ∧ 0 ≤ i ∧ i < h ∧ 0 ≤ j ∧ j < w := by
  cases hi with
  | @cons _ k _ is hx hr =>
    obtain ⟨i, j, rfl, h⟩ := matIndex2 hr
    exact ⟨k, i, j, rfl, hx.1, hx.2, h⟩

/-- What a plan that copies `s` to `m` must be. -/
def IsPlan (m s : Mat) (l : List (Int × Int)) : Prop :=
  ∀ x, x ∈ l ↔ ∃ idx c b, MatIndex (matSizes m) idx ∧ 0 ≤ c ∧ c < m.chan ∧ 0 ≤ b ∧ b < m.unit ∧
    x = (matByte m idx c b, matByte s idx c b)

theorem isPlan_block {m s : Mat} (hsz : matSizes s = matSizes m)
    (hch : s.chan = m.chan) (hdep : s.depth = m.depth) (hc : 0 < m.chan) (h1 : ∀ n ∈ matSizes m, 1 ≤ n)
    {e : Int} (hm : (e.natAbs : Int) = m.elemSize) (hdm : m.dims = autoStep e (matSizes m))
    (hds : s.dims = autoStep e (matSizes s)) :
    IsPlan m s (bytePairs (m.elemSize * elementNumber m).toNat (memoryData m) (memoryData s)) := by
  have hu : s.unit = m.unit := unit_of_depth hdep
  have hE : s.elemSize = m.elemSize := by rw [Mat.elemSize, Mat.elemSize, hu, hch]
  have hp := elemSize_pos hc
  have rank : ∀ (x : Mat), x.dims = autoStep e (matSizes x) → ∀ idx, MatIndex (matSizes x) idx →
      ptr x idx 0 = x.data + e * matRank (matSizes x) idx := by
    intro x hx idx hi
    rw [ptr_off]
    have := off_autoStep e (matSizes x) idx (MatIndex.length hi)
    rw [← hx] at this
    rw [this]; ring
  have km := fun idx hi => block_key hc h1 (s := e) (by omega) (rank m hdm) idx hi
  have ks := fun idx hi => block_key (by omega : 0 < s.chan) (by rw [hsz]; exact h1) (s := e) (by omega) (rank s hds) idx hi
  rw [hsz, hE] at ks
  have hN : 0 ≤ m.elemSize * matCount (matSizes m) := mul_nonneg hp.le (by have := matCount_pos h1; omega)
  intro x
  rw [mem_bytePairs, elementNumber_eq, Int.toNat_of_nonneg hN]
  constructor
  · rintro ⟨k, k0, k1, rfl⟩
    obtain ⟨idx, c, b, hi, c0, c1, b0, b1, ek⟩ := block_split h1 e (E := m.elemSize) rfl (unit_pos m) hc k k0 k1
    refine ⟨idx, c, b, hi, c0, c1, b0, b1, ?_⟩
    rw [byte_ptr, byte_ptr, km idx hi, ks idx hi, hu, ek]
    simp only [Prod.mk.injEq]
    constructor <;> ring
  · rintro ⟨idx, c, b, hi, c0, c1, b0, b1, rfl⟩
    have bd := block_bound e (E := m.elemSize) rfl (unit_pos m) hc hi c0 c1 b0 b1
    refine ⟨_, bd.1, bd.2, ?_⟩
    rw [byte_ptr, byte_ptr, km idx hi, ks idx hi, hu]
    simp only [Prod.mk.injEq]
    constructor <;> ring

theorem copyPlan_spec {m s : Mat} (hne : m.dims ≠ []) (hsz : matSizes s = matSizes m) (hch : s.chan = m.chan)
    (hdep : s.depth = m.depth) (hc : 0 < m.chan) (h1 : ∀ n ∈ matSizes m, 1 ≤ n) (am : Aligned m) (as : Aligned s) :
    ∃ l, copyPlan m s = some l ∧ IsPlan m s l := by
  have hlen : s.dims.length = m.dims.length := by
    have := congrArg List.length hsz; simpa [matSizes] using this
  have hns : s.dims ≠ [] := by intro h; rw [h] at hlen; exact hne (List.length_eq_zero_iff.1 hlen.symm)
  have hu : s.unit = m.unit := unit_of_depth hdep
  have hcn : ((m.chan.toNat : Nat) : Int) = m.chan := Int.toNat_of_nonneg hc.le
  obtain ⟨dm, hdm, lm, hlm, elm⟩ := aligned_step am
  obtain ⟨ds, hds, ls, hls, els⟩ := aligned_step as
  rw [copyPlan, hlm, hls]
  simp only
  split
  · rename_i h
    refine ⟨_, rfl, ?_⟩
    obtain ⟨e, he, hde⟩ := (isContinuous_iff hne).1 h.2.2.1
    obtain ⟨e', he', hde'⟩ := (isContinuous_iff hns).1 h.2.2.2
    have e1 : dm.step = e := autoStep_last e _ dm (by rw [← hde]; exact hdm)
    have e2 : ds.step = e' := autoStep_last e' _ ds (by rw [← hde']; exact hds)
    have : e = e' := by rw [← e1, ← e2, ← elm, ← els, h.2.1, hu]
    subst this
    exact isPlan_block hsz hch hdep hc h1 he hde hde'
  · split
    · rename_i d0 d1 e0 e1 hm hs
      refine ⟨_, rfl, fun x => ?_⟩
      have z0 : e0.size = d0.size ∧ e1.size = d1.size := by
        rw [matSizes, matSizes, hm, hs] at hsz; simpa using hsz
      have l1 : lm * m.unit = d1.step := by rw [elm]; rw [hm] at hdm; simp at hdm; rw [hdm]
      have l2 : ls * m.unit = e1.step := by rw [← hu, els]; rw [hs] at hds; simp at hds; rw [hds]
      have hb : ∀ i j c b, matByte m [i, j] c b = m.data + i * d0.step + j * d1.step + c * m.unit + b := by
        intro i j c b; simp only [matByte, ptr_off, hm, off]; ring
      have hb' : ∀ i j c b, matByte s [i, j] c b = s.data + i * e0.step + j * e1.step + c * m.unit + b := by
        intro i j c b; simp only [matByte, ptr_off, hs, off, hu]; ring
      have hms : matSizes m = [d0.size, d1.size] := by rw [matSizes, hm]; rfl
      rw [mem_loop2, hms, unit_nat, l1, l2]
      constructor
      · rintro ⟨i, i1, h⟩
        obtain ⟨j, j1, h⟩ := (mem_loop2 _ _ _ _ _ _ _).1 h
        obtain ⟨c, b, c0, c1, b0, b1, e⟩ := (mem_chanPairs _ _ _ _ _).1 h
        rw [unit_nat] at b1 e
        refine ⟨[i, j], c, b, matIndex_cons.2 ⟨⟨by omega, by omega⟩, matIndex_cons.2 ⟨⟨by omega, by omega⟩, matIndex_nil⟩⟩,
          c0, by omega, b0, b1, ?_⟩
        rw [e, hb, hb']
      · rintro ⟨idx, c, b, hi, c0, c1, b0, b1, e⟩
        obtain ⟨i, j, rfl, i0, i1, j0, j1⟩ := matIndex2 hi
        refine ⟨i.toNat, by omega, (mem_loop2 _ _ _ _ _ _ _).2 ⟨j.toNat, by omega, (mem_chanPairs _ _ _ _ _).2
          ⟨c, b, c0, by omega, b0, by rw [unit_nat]; exact b1, ?_⟩⟩⟩
        rw [e, hb, hb', Int.toNat_of_nonneg i0, Int.toNat_of_nonneg j0, unit_nat]
    · rename_i d0 d1 d2 e0 e1 e2 hm hs
      refine ⟨_, rfl, fun x => ?_⟩
      have l1 : lm * m.unit = d2.step := by rw [elm]; rw [hm] at hdm; simp at hdm; rw [hdm]
      have l2 : ls * m.unit = e2.step := by rw [← hu, els]; rw [hs] at hds; simp at hds; rw [hds]
      have hb : ∀ k i j c b, matByte m [k, i, j] c b =
          m.data + k * d0.step + i * d1.step + j * d2.step + c * m.unit + b := by
        intro k i j c b; simp only [matByte, ptr_off, hm, off]; ring
      have hb' : ∀ k i j c b, matByte s [k, i, j] c b =
          s.data + k * e0.step + i * e1.step + j * e2.step + c * m.unit + b := by
        intro k i j c b; simp only [matByte, ptr_off, hs, off, hu]; ring
      have hms : matSizes m = [d0.size, d1.size, d2.size] := by rw [matSizes, hm]; rfl
      rw [mem_loop2, hms, unit_nat, l1, l2]
      constructor
      · rintro ⟨k, k1, h⟩
        obtain ⟨i, i1, h⟩ := (mem_loop2 _ _ _ _ _ _ _).1 h
        obtain ⟨j, j1, h⟩ := (mem_loop2 _ _ _ _ _ _ _).1 h
        obtain ⟨c, b, c0, c1, b0, b1, e⟩ := (mem_chanPairs _ _ _ _ _).1 h
        rw [unit_nat] at b1 e
        refine ⟨[k, i, j], c, b, matIndex_cons.2 ⟨⟨by omega, by omega⟩, matIndex_cons.2 ⟨⟨by omega, by omega⟩,
          matIndex_cons.2 ⟨⟨by omega, by omega⟩, matIndex_nil⟩⟩⟩, c0, by omega, b0, b1, ?_⟩
        rw [e, hb, hb']
      · rintro ⟨idx, c, b, hi, c0, c1, b0, b1, e⟩
        obtain ⟨k, i, j, rfl, k0, k1, i0, i1, j0, j1⟩ := matIndex3 hi
        refine ⟨k.toNat, by omega, (mem_loop2 _ _ _ _ _ _ _).2 ⟨i.toNat, by omega, (mem_loop2 _ _ _ _ _ _ _).2
          ⟨j.toNat, by omega, (mem_chanPairs _ _ _ _ _).2 ⟨c, b, c0, by omega, b0, by rw [unit_nat]; exact b1, ?_⟩⟩⟩⟩
        rw [e, hb, hb', Int.toNat_of_nonneg i0, Int.toNat_of_nonneg j0, Int.toNat_of_nonneg k0, unit_nat]
    · rw [if_pos hlen.symm]
      refine ⟨_, rfl, fun x => ?_⟩
      rw [iterAll_eq m hne h1, iterAll_eq s hns (by rw [hsz]; exact h1), hsz, List.zip_map', List.flatMap_map,
        List.mem_flatMap]
      have h0 : ∀ n ∈ matSizes m, 0 ≤ n := fun n hn => by have := h1 n hn; omega
      constructor
      · rintro ⟨idx, hi, h⟩
        obtain ⟨c, b, c0, c1, b0, b1, e⟩ := (mem_chanPairs _ _ _ _ _).1 h
        rw [unit_nat] at b1 e
        refine ⟨idx, c, b, (mem_matAll h0).1 hi, c0, by omega, b0, b1, ?_⟩
        rw [e, byte_ptr, byte_ptr, hu]
      · rintro ⟨idx, c, b, hi, c0, c1, b0, b1, e⟩
        refine ⟨idx, (mem_matAll h0).2 hi, (mem_chanPairs _ _ _ _ _).2 ⟨c, b, c0, by omega, b0, by rw [unit_nat]; exact b1, ?_⟩⟩
        rw [e, byte_ptr, byte_ptr, hu, unit_nat]

end Verif.Mat
