import Verif.Proof.ComponentsFill

/-!
# The bounds of the pixels that count
-/

namespace Verif.Components

open Verif.Rectangle Verif.Spec

/-- `b'` covers `b`, and every limit of `b` and of the columns and rows given is one of `b'`. -/
structure Widened (b b' : Bounds) (row0 row1 col0 col1 : Int) : Prop where
  rowMax : b.rowMax ≤ b'.rowMax ∧ ∀ M, b.rowMax ≤ M → row1 ≤ M + 1 → b'.rowMax ≤ M
  colMax : b.colMax ≤ b'.colMax ∧ ∀ M, b.colMax ≤ M → col1 ≤ M + 1 → b'.colMax ≤ M
  rowMin : b'.rowMin ≤ b.rowMin ∧ ∀ M, M ≤ b.rowMin → M ≤ row0 → M ≤ b'.rowMin
  colMin : b'.colMin ≤ b.colMin ∧ ∀ M, M ≤ b.colMin → M ≤ col0 → M ≤ b'.colMin

/-- The pixel is within the bounds. -/
def Bounds.Has (b : Bounds) (row col : Int) : Prop := row ≤ b.rowMax ∧ b.rowMin ≤ row ∧ col ≤ b.colMax ∧ b.colMin ≤ col

theorem Bounds.Has.widen {b b' : Bounds} {row col x0 x1 y0 y1 : Int} (h : b.Has row col) (w : Widened b b' y0 y1 x0 x1) :
    b'.Has row col := by
  obtain ⟨a, c, d, e⟩ := h
  exact ⟨Int.le_trans a w.rowMax.1, Int.le_trans w.rowMin.1 c, Int.le_trans d w.colMax.1, Int.le_trans w.colMin.1 e⟩

theorem Widened.refl (b : Bounds) (x0 x1 y0 y1 : Int) : Widened b b y0 y1 x0 x1 :=
  ⟨⟨Int.le_refl _, fun _ h _ => h⟩, ⟨Int.le_refl _, fun _ h _ => h⟩, ⟨Int.le_refl _, fun _ h _ => h⟩,
    ⟨Int.le_refl _, fun _ h _ => h⟩⟩

theorem see_widened (b : Bounds) (row col : Int) (x : Bool) : Widened b (b.see row col x) row (row + 1) col (col + 1) ∧
    (x = true → (b.see row col x).Has row col) ∧ (x = false → b.see row col x = b) := by
  cases x with
  | false => exact ⟨Widened.refl _ _ _ _ _, (fun h => Bool.noConfusion h), (fun _ => rfl)⟩
  | true =>
    have e : b.see row col true = ⟨max b.rowMax row, max b.colMax col, min b.rowMin row, min b.colMin col⟩ := if_pos rfl
    rw [e]
    refine ⟨⟨⟨?_, fun M _ _ => ?_⟩, ⟨?_, fun M _ _ => ?_⟩, ⟨?_, fun M _ _ => ?_⟩, ⟨?_, fun M _ _ => ?_⟩⟩, fun _ => ?_, fun h => Bool.noConfusion h⟩ <;>
      simp only [Bounds.Has] <;> omega

theorem boundsCols_eq {keep : Int → Option Bool} {sz row : Int} : ∀ (c : Nat) (col a : Int) (b : Bounds) {r : Int × Bounds},
    boundsCols keep sz row c col a b = some r → r.1 = a + c * sz ∧ Widened b r.2 row (row + 1) col (col + c) ∧
      (∀ i : Nat, i < c → keep (a + i * sz) = some true → r.2.Has row (col + i)) ∧
      ((∀ i : Nat, i < c → keep (a + i * sz) ≠ some true) → r.2 = b)
  | 0, col, a, b, r, h => by
    cases Option.some.inj h
    exact ⟨by simp, Widened.refl _ _ _ _ _, fun i hi => by omega, fun _ => rfl⟩
  | c + 1, col, a, b, r, h => by
    rw [boundsCols, Option.bind_eq_some_iff] at h
    obtain ⟨x, hx, h⟩ := h
    obtain ⟨e1, e2, e3, e4⟩ := boundsCols_eq c (col + 1) (a + sz) _ h
    obtain ⟨s1, s2, s3⟩ := see_widened b row col x
    have ea : ∀ i : Nat, a + sz + (i : Int) * sz = a + ((i + 1 : Nat) : Int) * sz := by intro i; push_cast; ring
    have e0 : a + ((0 : Nat) : Int) * sz = a := by simp
    refine ⟨by rw [e1, ea], ⟨⟨Int.le_trans s1.rowMax.1 e2.rowMax.1, fun M p q => ?_⟩,
      ⟨Int.le_trans s1.colMax.1 e2.colMax.1, fun M p q => ?_⟩, ⟨Int.le_trans e2.rowMin.1 s1.rowMin.1, fun M p q => ?_⟩,
      ⟨Int.le_trans e2.colMin.1 s1.colMin.1, fun M p q => ?_⟩⟩, fun i hi hk => ?_, fun hn => ?_⟩
    · exact e2.rowMax.2 M (s1.rowMax.2 M p q) q
    · exact e2.colMax.2 M (s1.colMax.2 M p (by omega)) (by omega)
    · exact e2.rowMin.2 M (s1.rowMin.2 M p q) q
    · exact e2.colMin.2 M (s1.colMin.2 M p q) (by omega)
    · cases i with
      | zero =>
        rw [e0, hx] at hk
        have := (s2 (Option.some.inj hk)).widen e2
        rwa [show col + ((0 : Nat) : Int) = col by simp]
      | succ i =>
        have := e3 i (by omega) (by rw [ea]; exact hk)
        rwa [show col + 1 + (i : Int) = col + ((i + 1 : Nat) : Int) by omega] at this
    · rw [e4 (fun i hi => by rw [ea]; exact hn (i + 1) (by omega))]
      refine s3 ?_
      have := hn 0 (by omega)
      rw [e0, hx] at this
      cases x with
      | false => rfl
      | true => exact absurd rfl this

theorem boundsCols_ok {keep : Int → Option Bool} {sz row : Int} : ∀ (c : Nat) (col a : Int) (b : Bounds),
    (∀ i : Nat, i < c → ∃ x, keep (a + i * sz) = some x) → ∃ r, boundsCols keep sz row c col a b = some r
  | 0, _, _, _, _ => ⟨_, rfl⟩
  | c + 1, col, a, b, h => by
    obtain ⟨x, hx⟩ := h 0 (by omega)
    rw [show a + ((0 : Nat) : Int) * sz = a by simp] at hx
    rw [boundsCols, hx, Option.bind_some]
    refine boundsCols_ok c (col + 1) (a + sz) _ fun i hi => ?_
    obtain ⟨y, hy⟩ := h (i + 1) (by omega)
    exact ⟨y, by rw [← hy]; congr 1; push_cast; ring⟩

theorem boundsRows_eq {keep : Int → Option Bool} {sz : Int} {W : Nat} : ∀ (c : Nat) (row a : Int) (b : Bounds) {r : Bounds},
    boundsRows keep sz W c row a b = some r → Widened b r row (row + c) 0 W ∧
      (∀ i j : Nat, i < c → j < W → keep (a + i * (W * sz) + j * sz) = some true → r.Has (row + i) j) ∧
      ((∀ i j : Nat, i < c → j < W → keep (a + i * (W * sz) + j * sz) ≠ some true) → r = b)
  | 0, row, a, b, r, h => by
    cases Option.some.inj h
    exact ⟨Widened.refl _ _ _ _ _, fun i j hi => by omega, fun _ => rfl⟩
  | c + 1, row, a, b, r, h => by
    rw [boundsRows, Option.bind_eq_some_iff] at h
    obtain ⟨q, h1, h2⟩ := h
    obtain ⟨a1, s1, s2, s3⟩ := boundsCols_eq _ _ _ _ h1
    rw [a1] at h2
    obtain ⟨e2, e3, e4⟩ := boundsRows_eq c (row + 1) _ _ h2
    have ea : ∀ i j : Nat, a + W * sz + (i : Int) * (W * sz) + j * sz = a + ((i + 1 : Nat) : Int) * (W * sz) + j * sz := by
      intro i j; push_cast; ring
    have e0 : ∀ j : Nat, a + ((0 : Nat) : Int) * (W * sz) + j * sz = a + j * sz := by intro j; simp
    refine ⟨⟨⟨Int.le_trans s1.rowMax.1 e2.rowMax.1, fun M p q => ?_⟩,
      ⟨Int.le_trans s1.colMax.1 e2.colMax.1, fun M p q => ?_⟩, ⟨Int.le_trans e2.rowMin.1 s1.rowMin.1, fun M p q => ?_⟩,
      ⟨Int.le_trans e2.colMin.1 s1.colMin.1, fun M p q => ?_⟩⟩, fun i j hi hj hk => ?_, fun hn => ?_⟩
    · exact e2.rowMax.2 M (s1.rowMax.2 M p (by omega)) (by omega)
    · exact e2.colMax.2 M (s1.colMax.2 M p (by omega)) (by omega)
    · exact e2.rowMin.2 M (s1.rowMin.2 M p q) (by omega)
    · exact e2.colMin.2 M (s1.colMin.2 M p q) (by omega)
    · cases i with
      | zero =>
        rw [e0] at hk
        have := (s2 j hj hk).widen e2
        rwa [show row + ((0 : Nat) : Int) = row by simp, ← Int.zero_add (j : Int)]
      | succ i =>
        have := e3 i j (by omega) hj (by rw [ea]; exact hk)
        rwa [show row + 1 + (i : Int) = row + ((i + 1 : Nat) : Int) by omega] at this
    · rw [e4 (fun i j hi hj => by rw [ea]; exact hn (i + 1) j (by omega) hj)]
      exact s3 fun j hj => by
        have := hn 0 j (by omega) hj
        rwa [e0] at this

theorem boundsRows_ok {keep : Int → Option Bool} {sz : Int} {W : Nat} : ∀ (c : Nat) (row a : Int) (b : Bounds),
    (∀ i j : Nat, i < c → j < W → ∃ x, keep (a + i * (W * sz) + j * sz) = some x) →
    ∃ r, boundsRows keep sz W c row a b = some r
  | 0, _, _, _, _ => ⟨_, rfl⟩
  | c + 1, row, a, b, h => by
    obtain ⟨q, hq⟩ := boundsCols_ok (keep := keep) (sz := sz) (row := row) W 0 a b fun j hj => by
      obtain ⟨x, hx⟩ := h 0 j (by omega) hj
      exact ⟨x, by rw [← hx]; congr 1; simp⟩
    obtain ⟨r, hr⟩ := boundsRows_ok (keep := keep) (sz := sz) (W := W) c (row + 1) q.1 q.2 fun i j hi hj => by
      obtain ⟨x, hx⟩ := h (i + 1) j (by omega) hj
      exact ⟨x, by rw [← hx, (boundsCols_eq _ _ _ _ hq).1]; congr 1; push_cast; ring⟩
    exact ⟨r, by rw [boundsRows, hq, Option.bind_some, hr]⟩

end Verif.Components
