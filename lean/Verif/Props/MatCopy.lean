import Verif.Proof.MatCopy

/-!
# C106, C107: copying arrays
-/

namespace Verif.Props

open Verif.Spec Verif.Mat

/-! ### C106: `set(other)` -/

/-- All elements of `m` in `H'` hold the bytes that those of `s` hold in `H`, and no other byte changed. -/
def MatCopied (H H' : Heap) (m s : Mat) : Prop :=
  (∀ idx c b, MatIndex (matSizes m) idx → 0 ≤ c → c < m.chan → 0 ≤ b → b < m.unit →
    H' (matByte m idx c b) = H (matByte s idx c b)) ∧ ∀ a, ¬ MatHas m a → H' a = H a

/-- C106: `set(other)` with the same depth, whatever the steps of the two arrays. -/
theorem C106_copy_partial (H : Heap) (m s : Mat) (hne : m.dims ≠ []) (hsz : matSizes s = matSizes m)
    (hch : s.chan = m.chan) (hdep : s.depth = m.depth) (hc : 0 < m.chan) (h1 : ∀ n ∈ matSizes m, 1 ≤ n)
    (am : Aligned m) (as : Aligned s) (lm : MatLive H m) (ls : MatLive H s) (ap : MatApart m) (dj : MatDisjoint m s) :
    ∃ H', setMat H m s = some H' ∧ MatCopied H H' m s := by
  obtain ⟨l, hl, hp⟩ := copyPlan_spec hne hsz hch hdep hc h1 am as
  have hu : s.unit = m.unit := unit_of_depth hdep
  have hasm : ∀ idx c b, MatIndex (matSizes m) idx → 0 ≤ c → c < m.chan → 0 ≤ b → b < m.unit →
      MatHas m (matByte m idx c b) ∧ MatHas s (matByte s idx c b) := by
    intro idx c b hi c0 c1 b0 b1
    exact ⟨⟨idx, c, b, hi, c0, c1, b0, b1, rfl⟩, ⟨idx, c, b, by rw [hsz]; exact hi, c0, by omega, b0, by omega, rfl⟩⟩
  obtain ⟨H', e, p1, p2⟩ := copyPairs_spec l H
    (by
      intro x hx
      obtain ⟨idx, c, b, hi, c0, c1, b0, b1, rfl⟩ := (hp x).1 hx
      have := hasm idx c b hi c0 c1 b0 b1
      exact ⟨lm _ this.1, ls _ this.2⟩)
    (by
      intro x hx y hy e
      obtain ⟨idx, c, b, hi, c0, c1, b0, b1, rfl⟩ := (hp x).1 hx
      obtain ⟨idx', c', b', hi', c0', c1', b0', b1', rfl⟩ := (hp y).1 hy
      simp only at e
      exact dj _ (hasm idx c b hi c0 c1 b0 b1).1 (e ▸ (hasm idx' c' b' hi' c0' c1' b0' b1').2))
    (by
      intro x hx y hy e
      obtain ⟨idx, c, b, hi, c0, c1, b0, b1, rfl⟩ := (hp x).1 hx
      obtain ⟨idx', c', b', hi', c0', c1', b0', b1', rfl⟩ := (hp y).1 hy
      obtain ⟨rfl, rfl, rfl⟩ := ap idx c b idx' c' b' hi hi' c0 c1 c0' c1' b0 b1 b0' b1' e
      rfl)
  refine ⟨H', by rw [setMat, hl]; exact e, ?_, ?_⟩
  · intro idx c b hi c0 c1 b0 b1
    exact p1 _ ((hp _).2 ⟨idx, c, b, hi, c0, c1, b0, b1, rfl⟩)
  · intro a ha
    apply p2
    intro x hx e
    obtain ⟨idx, c, b, hi, c0, c1, b0, b1, rfl⟩ := (hp x).1 hx
    exact ha ⟨idx, c, b, hi, c0, c1, b0, b1, e.symm⟩

/-- Created arrays are aligned. -/
theorem aligned_create (a : Int) (sizes : List Int) (depth : Fin 10) (chan : Int) (h : sizes ≠ []) :
    Aligned (create a sizes depth chan) := by
  have hne : autoStep (depthSize depth * chan) sizes ≠ [] := by
    intro e
    have := autoStep_sizes (depthSize depth * chan) sizes
    rw [e] at this
    exact h this.symm
  refine ⟨_, chan, List.getLast?_eq_some_getLast hne, ?_⟩
  rw [autoStep_last _ _ _ (List.getLast?_eq_some_getLast hne)]
  simp only [create, Mat.unit]
  ring

example : ∃ (H : Heap) (m s : Mat), m.dims ≠ [] ∧ matSizes s = matSizes m ∧ s.chan = m.chan ∧ s.depth = m.depth ∧
    0 < m.chan ∧ (∀ n ∈ matSizes m, 1 ≤ n) ∧ Aligned m ∧ Aligned s ∧ MatLive H m ∧ MatLive H s ∧ MatApart m ∧
    MatDisjoint m s := by
  have h0 : ∀ n ∈ [4, 5], (0 : Int) ≤ n := by decide
  refine ⟨fun _ => some 0, create 0 [4, 5] 2 3, create 200 [4, 5] 2 3, by decide, by decide, rfl, rfl, by decide, by decide,
    aligned_create _ _ _ _ (by decide), aligned_create _ _ _ _ (by decide), fun _ _ => by simp, fun _ _ => by simp,
    (C102_create 0 [4, 5] 2 3 h0).2.1, ?_⟩
  intro a ha hb
  have h1 := ((C102_create 0 [4, 5] 2 3 h0).2.2 a).1 ha
  have h2 := ((C102_create 200 [4, 5] 2 3 h0).2.2 a).1 hb
  have : allocSize [4, 5] 2 3 = 120 := by decide
  omega

/-- The property for different depths ("other mat can be different depth", mt_mat.h 128): numbers that fit are kept. -/
def ConvertKeeps : Prop :=
  ∀ (H H' : Heap) (m s : Mat) (idx : List Int) (c : Int) (v : Nat), matSizes s = matSizes m → s.chan = m.chan →
    m.depth ∈ [0, 2, 4, 6] → s.depth ∈ [0, 2, 4, 6] → (∀ n ∈ matSizes m, 1 ≤ n) → MatIndex (matSizes m) idx → 0 ≤ c →
    c < m.chan → setMat H m s = some H' → matNat H s idx c = some v → v < 256 ^ m.unit.toNat → matNat H' m idx c = some v

/-- The type of the source is taken from the destination: a 2x2 array of `u16` set into one of `u8`. -/
theorem not_C106_convert : ¬ ConvertKeeps := by
  intro h
  have hs : ∃ H', setMat (fun x => if x < 0 then none else some (if x = 100 ∨ x = 102 ∨ x = 104 ∨ x = 106 then 1 else 0))
      (create 0 [2, 2] 0 1) (create 100 [2, 2] 2 1) = some H' ∧ matNat H' (create 0 [2, 2] 0 1) [0, 1] 0 = some 0 := by
    refine ⟨_, rfl, ?_⟩
    decide
  obtain ⟨H', e1, e2⟩ := hs
  have := h _ H' (create 0 [2, 2] 0 1) (create 100 [2, 2] 2 1) [0, 1] 0 1 (by decide) rfl (by decide) (by decide) (by decide)
    (by simp only [MatIndex]; decide) (by decide) (by decide) e1 (by decide) (by decide)
  rw [e2] at this
  exact absurd this (by decide)

/-! ### C107: `clone`, `copy_from` -/

/-- C107: a clone has the sizes, depth, channels and elements of the original, shares no byte with it, and making it changes
nothing outside of the memory allocated for it.  `copy_from` does the same when it allocates. -/
theorem C107_clone (H : Heap) (m : Mat) (a : Int) (junk : Int → Nat) (hne : m.dims ≠ []) (hc : 0 < m.chan)
    (h1 : ∀ n ∈ matSizes m, 1 ≤ n) (am : Aligned m) (lm : MatLive H m)
    (fresh : ∀ x, a ≤ x → x < a + memorySize m → H x = none) :
    ∃ H' r, clone H m a junk = some (H', r) ∧ matSizes r = matSizes m ∧ r.depth = m.depth ∧ r.chan = m.chan ∧
      MatDisjoint r m ∧ MatApart r ∧ isContinuous r = true ∧
      (∀ idx c b, MatIndex (matSizes m) idx → 0 ≤ c → c < m.chan → 0 ≤ b → b < m.unit →
        H' (matByte r idx c b) = H (matByte m idx c b)) ∧
      (∀ x, x < a ∨ a + memorySize m ≤ x → H' x = H x) := by
  have h0 : ∀ n ∈ matSizes m, 0 ≤ n := fun n hn => by have := h1 n hn; omega
  have hcr := C102_create a (matSizes m) m.depth m.chan h0
  have hms : memorySize m = allocSize (matSizes m) m.depth m.chan := by
    rw [memorySize, elementNumber_eq, allocSize, foldl_count]; rfl
  have hdj : MatDisjoint (create a (matSizes m) m.depth m.chan) m := by
    intro x hx hxm
    have := (hcr.2.2 x).1 hx
    exact lm x hxm (fresh x this.1 (by rw [hms]; exact this.2))
  have hold : ∀ x, ¬ (a ≤ x ∧ x < a + allocSize (matSizes m) m.depth m.chan) →
      alloc H a (allocSize (matSizes m) m.depth m.chan) junk x = H x := by
    intro x hx; rw [alloc, if_neg hx]
  have hsn : matSizes m ≠ [] := by simpa [matSizes] using hne
  have hdne : (create a (matSizes m) m.depth m.chan).dims ≠ [] := by
    intro e
    have h2 := hcr.1
    rw [matSizes, e] at h2
    exact hsn h2.symm
  obtain ⟨H', e, c1, c2⟩ := C106_copy_partial (alloc H a (allocSize (matSizes m) m.depth m.chan) junk)
    (create a (matSizes m) m.depth m.chan) m hdne hcr.1.symm rfl rfl hc (by rw [hcr.1]; exact h1)
    (aligned_create _ _ _ _ hsn) am
    (by intro x hx; rw [alloc, if_pos ((hcr.2.2 x).1 hx)]; simp)
    (by
      intro x hx
      rw [hold x fun h => hdj x ((hcr.2.2 x).2 h) hx]
      exact lm x hx)
    hcr.2.1 hdj
  refine ⟨H', create a (matSizes m) m.depth m.chan, ?_, hcr.1, rfl, rfl, hdj, hcr.2.1, ?_, ?_, ?_⟩
  · rw [clone]
    rw [show m.dims.map Dim.size = matSizes m from rfl, e]
    rfl
  · rw [isContinuous_iff hdne]
    refine ⟨m.elemSize, ?_, by rw [hcr.1]; rfl⟩
    have := elemSize_pos hc
    show ((m.elemSize).natAbs : Int) = m.elemSize
    omega
  · intro idx c b hi c0 c1' b0 b1
    rw [c1 idx c b (by rw [hcr.1]; exact hi) c0 c1' b0 b1]
    apply hold
    intro h
    exact hdj _ ((hcr.2.2 _).2 h) ⟨idx, c, b, hi, c0, c1', b0, b1, rfl⟩
  · intro x hx
    rw [c2 x fun h => by have := (hcr.2.2 x).1 h; omega]
    exact hold x (by omega)

example : ∃ (H : Heap) (m : Mat) (a : Int), m.dims ≠ [] ∧ 0 < m.chan ∧ (∀ n ∈ matSizes m, 1 ≤ n) ∧ Aligned m ∧ MatLive H m ∧
    ∀ x, a ≤ x → x < a + memorySize m → H x = none := by
  refine ⟨fun x => if x < 200 then some 0 else none, create 0 [4, 5] 2 3, 300, by decide, by decide, by decide,
    aligned_create _ _ _ _ (by decide), ?_, fun x hx _ => if_neg (by omega)⟩
  intro x hx
  have h1 := ((C102_create 0 [4, 5] 2 3 (by decide)).2.2 x).1 hx
  have : allocSize [4, 5] 2 3 = 120 := by decide
  show (if x < 200 then some 0 else none) ≠ none
  rw [if_pos (by omega)]
  simp

end Verif.Props
