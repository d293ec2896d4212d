import Verif.Proof.Components

/-!
# The temporary image of the connected component extraction
-/

namespace Verif.Components

open Verif.Rectangle Verif.Spec

theorem write_eq {t t' : Tmp} {a : Int} {x : Nat} (h : t.write a x = some t') :
    t'.cap = t.cap ∧ t'.mem a = some x ∧ ∀ b, b ≠ a → t'.mem b = t.mem b := by
  unfold Tmp.write at h
  split at h
  · cases Option.some.inj h
    exact ⟨rfl, if_pos rfl, fun b hb => if_neg hb⟩
  · cases h

theorem write_ok {t : Tmp} {a : Int} (x : Nat) (h0 : 0 ≤ a) (h1 : a < t.cap) : ∃ t', t.write a x = some t' :=
  ⟨_, if_pos ⟨h0, h1⟩⟩

theorem writeElem_eq {a : Int} {x : Nat → Nat} : ∀ (k j : Nat) {t t' : Tmp}, t.writeElem a x k j = some t' →
    t'.cap = t.cap ∧ ∀ b, (b < a + j ∨ a + j + k ≤ b) → t'.mem b = t.mem b
  | 0, j, t, t', h => by
    cases Option.some.inj h
    exact ⟨rfl, fun b _ => rfl⟩
  | k + 1, j, t, t', h => by
    rw [Tmp.writeElem, Option.bind_eq_some_iff] at h
    obtain ⟨t1, h1, h2⟩ := h
    obtain ⟨c1, _, m1⟩ := write_eq h1
    obtain ⟨c2, m2⟩ := writeElem_eq k (j + 1) h2
    refine ⟨c2.trans c1, fun b hb => ?_⟩
    rw [m2 b (by omega), m1 b (by omega)]

theorem writeElem_ok {a : Int} {x : Nat → Nat} (h0 : 0 ≤ a) : ∀ (k j : Nat) {t : Tmp}, a + j + k ≤ t.cap →
    ∃ t', t.writeElem a x k j = some t'
  | 0, j, t, _ => ⟨t, rfl⟩
  | k + 1, j, t, h => by
    obtain ⟨t1, h1⟩ := write_ok (t := t) (a := a + j) (x j) (by omega) (by omega)
    obtain ⟨t2, h2⟩ := writeElem_ok h0 k (j + 1) (t := t1) (by rw [(write_eq h1).1]; omega)
    exact ⟨t2, by rw [Tmp.writeElem, h1]; exact h2⟩

theorem flagRow_eq {s : Int} : ∀ (c : Nat) (k : Int) {t : Tmp} {r : Int × Tmp}, flagRow s c (k * s) t = some r →
    r.1 = (k + c) * s ∧ r.2.cap = t.cap ∧ (∀ b, (∀ j, k ≤ j → j < k + c → b ≠ j * s) → r.2.mem b = t.mem b) ∧
      ∀ j, k ≤ j → j < k + c → r.2.mem (j * s) = some 1
  | 0, k, t, r, h => by
    cases Option.some.inj h
    exact ⟨by simp, rfl, fun b _ => rfl, fun j h1 h2 => by omega⟩
  | c + 1, k, t, r, h => by
    rw [flagRow, Option.bind_eq_some_iff] at h
    obtain ⟨t1, h1, h2⟩ := h
    obtain ⟨c1, w1, m1⟩ := write_eq h1
    rw [show k * s + s = (k + 1) * s by ring] at h2
    obtain ⟨e1, e2, e3, e4⟩ := flagRow_eq c (k + 1) h2
    refine ⟨by rw [e1]; push_cast; ring, e2.trans c1, fun b hb => ?_, fun j h3 h4 => ?_⟩
    · rw [e3 b (fun j h3 h4 => hb j (by omega) (by omega)), m1 b (hb k (by omega) (by omega))]
    · by_cases hj : k + 1 ≤ j
      · exact e4 j hj (by omega)
      · have : j = k := by omega
        subst this
        by_cases hb : ∀ j', j + 1 ≤ j' → j' < j + 1 + c → j * s ≠ j' * s
        · rw [e3 _ hb, w1]
        · simp only [not_forall] at hb
          obtain ⟨j', a1, a2, a3⟩ := hb
          rw [not_not.1 a3]
          exact e4 j' a1 a2

theorem flagRow_ok {s : Int} (hs : 0 < s) : ∀ (c : Nat) (k : Int) {t : Tmp}, 0 ≤ k → (k + c) * s ≤ t.cap →
    ∃ r, flagRow s c (k * s) t = some r
  | 0, k, t, _, _ => ⟨_, rfl⟩
  | c + 1, k, t, h0, h => by
    have hm : k * s < (k + (c + 1 : Nat)) * s := Int.mul_lt_mul_of_pos_right (by omega) hs
    obtain ⟨t1, h1⟩ := write_ok (t := t) (a := k * s) 1 (Int.mul_nonneg h0 (by omega)) (by omega)
    obtain ⟨r, h2⟩ := flagRow_ok hs c (k + 1) (t := t1) (by omega) (by
      rw [(write_eq h1).1]
      rw [show k + 1 + (c : Int) = k + (c + 1 : Nat) by omega]
      exact h)
    exact ⟨r, by rw [flagRow, h1, Option.bind_some, show k * s + s = (k + 1) * s by ring]; exact h2⟩

theorem mul_ne {s j k : Int} (hs : 0 < s) (h : j ≠ k) : j * s ≠ k * s := fun e => h (Int.eq_of_mul_eq_mul_right (by omega) e)

theorem fillCols_eq {I : Img} {keep : Int → Option Bool} : ∀ (c : Nat) (k raw : Int) (n : Nat) {t : Tmp}
    {r : Int × Int × Nat × Tmp}, fillCols I keep c (k * (1 + I.ch : Nat)) raw n t = some r →
    r.1 = (k + c) * (1 + I.ch : Nat) ∧ r.2.1 = raw + c * I.ch ∧ r.2.2.2.cap = t.cap ∧
    (∀ b, (b < k * (1 + I.ch : Nat) ∨ (k + c) * (1 + I.ch : Nat) ≤ b) → r.2.2.2.mem b = t.mem b) ∧
    (∀ i : Nat, i < c → ∃ x, keep (raw + i * I.ch) = some x ∧
      r.2.2.2.mem ((k + i) * (1 + I.ch : Nat)) = some (if x then 0 else 1)) ∧
    ∃ l : List Nat, r.2.2.1 = n + l.length ∧ ∀ i, i < c → keep (raw + i * I.ch) = some true → i ∈ l
  | 0, k, raw, n, t, r, h => by
    cases Option.some.inj h
    exact ⟨by simp, by simp, rfl, fun b _ => rfl, fun i hi => by omega, [], rfl, fun i hi => by omega⟩
  | c + 1, k, raw, n, t, r, h => by
    rw [fillCols, Option.bind_eq_some_iff] at h
    obtain ⟨x, hx, h⟩ := h
    have hk1 : k * ((1 + I.ch : Nat) : Int) + (1 + I.ch : Nat) = (k + 1) * (1 + I.ch : Nat) := by ring
    have hkc : (k + 1 + (c : Int)) * ((1 + I.ch : Nat) : Int) = (k + (c + 1 : Nat)) * (1 + I.ch : Nat) := by push_cast; ring
    have hlt : k * ((1 + I.ch : Nat) : Int) < (k + 1) * (1 + I.ch : Nat) := Int.mul_lt_mul_of_pos_right (by omega) (by omega)
    have hle : (k + 1) * ((1 + I.ch : Nat) : Int) ≤ (k + (c + 1 : Nat)) * (1 + I.ch : Nat) :=
      Int.mul_le_mul_of_nonneg_right (by omega) (by omega)
    have key : ∀ (t2 : Tmp) (m : Nat), fillCols I keep c (k * (1 + I.ch : Nat) + (1 + I.ch : Nat)) (raw + I.ch) m t2 = some r →
        (m = n + if x then 1 else 0) → t2.cap = t.cap → t2.mem (k * (1 + I.ch : Nat)) = some (if x then 0 else 1) →
        (∀ b, (b < k * (1 + I.ch : Nat) ∨ (k + 1) * (1 + I.ch : Nat) ≤ b) → t2.mem b = t.mem b) →
        r.1 = (k + (c + 1 : Nat)) * (1 + I.ch : Nat) ∧ r.2.1 = raw + (c + 1 : Nat) * I.ch ∧ r.2.2.2.cap = t.cap ∧
        (∀ b, (b < k * (1 + I.ch : Nat) ∨ (k + (c + 1 : Nat)) * (1 + I.ch : Nat) ≤ b) → r.2.2.2.mem b = t.mem b) ∧
        (∀ i : Nat, i < c + 1 → ∃ x, keep (raw + i * I.ch) = some x ∧
          r.2.2.2.mem ((k + i) * (1 + I.ch : Nat)) = some (if x then 0 else 1)) ∧
        ∃ l : List Nat, r.2.2.1 = n + l.length ∧ ∀ i, i < c + 1 → keep (raw + i * I.ch) = some true → i ∈ l := by
      intro t2 m h2 hm hcap hmem hrest
      rw [hk1] at h2
      obtain ⟨e1, e2, e3, e4, e5, l, e6, e7⟩ := fillCols_eq c (k + 1) (raw + I.ch) m h2
      refine ⟨by rw [e1, hkc], by rw [e2]; push_cast; ring, e3.trans hcap, fun b hb => ?_, fun i hi => ?_,
        (if x then 0 :: l.map (· + 1) else l.map (· + 1)), ?_, fun i hi hki => ?_⟩
      · rw [e4 b (by rw [hkc]; omega), hrest b (by omega)]
      · cases i with
        | zero =>
          refine ⟨x, by simpa using hx, ?_⟩
          have : (k + ((0 : Nat) : Int)) * ((1 + I.ch : Nat) : Int) = k * (1 + I.ch : Nat) := by simp
          rw [this, e4 _ (by omega), hmem]
        | succ i =>
          obtain ⟨y, hy, hm'⟩ := e5 i (by omega)
          refine ⟨y, ?_, ?_⟩
          · rw [← hy]; congr 1; push_cast; ring
          · rw [← hm']; congr 1; push_cast; ring
      · rw [e6, hm]
        cases x <;> simp <;> omega
      · cases i with
        | zero =>
          have : x = true := by
            have h0 : keep (raw + ((0 : Nat) : Int) * I.ch) = keep raw := by simp
            rw [h0, hx] at hki
            exact Option.some.inj hki
          rw [this]; simp
        | succ i =>
          have := e7 i (by omega) (by rw [← hki]; congr 1; push_cast; ring)
          cases x <;> simp [this]
    cases x with
    | true =>
      simp only [if_true, Option.bind_eq_some_iff] at h
      obtain ⟨t1, h1, v, hv, t2, h2, h3⟩ := h
      obtain ⟨c1, w1, m1⟩ := write_eq h1
      obtain ⟨c2, m2⟩ := writeElem_eq _ _ h2
      refine key t2 (n + 1) h3 rfl (c2.trans c1) ?_ fun b hb => ?_
      · rw [m2 _ (by omega), w1]; rfl
      · rw [m2 b (by rw [← hk1] at hb; push_cast at hb ⊢; omega), m1 b (by rw [← hk1] at hb; omega)]
    | false =>
      simp only [Bool.false_eq_true, if_false, Option.bind_eq_some_iff] at h
      obtain ⟨t1, h1, h3⟩ := h
      obtain ⟨c1, w1, m1⟩ := write_eq h1
      refine key t1 n h3 rfl c1 w1 fun b hb => ?_
      rw [m1 b (by rw [← hk1] at hb; omega)]

theorem fillCols_ok {I : Img} {keep : Int → Option Bool} : ∀ (c : Nat) (k raw : Int) (n : Nat) {t : Tmp}, 0 ≤ k →
    (k + c) * (1 + I.ch : Nat) ≤ t.cap →
    (∀ i : Nat, i < c → ∃ x, keep (raw + i * I.ch) = some x ∧ (x = true → ∃ v, I.elem (raw + i * I.ch) = some v)) →
    ∃ r, fillCols I keep c (k * (1 + I.ch : Nat)) raw n t = some r
  | 0, k, raw, n, t, _, _, _ => ⟨_, rfl⟩
  | c + 1, k, raw, n, t, h0, hcap, hk => by
    have hk1 : k * ((1 + I.ch : Nat) : Int) + (1 + I.ch : Nat) = (k + 1) * (1 + I.ch : Nat) := by ring
    have hkc : (k + 1 + (c : Int)) * ((1 + I.ch : Nat) : Int) = (k + (c + 1 : Nat)) * (1 + I.ch : Nat) := by push_cast; ring
    have hle : (k + 1) * ((1 + I.ch : Nat) : Int) ≤ (k + (c + 1 : Nat)) * (1 + I.ch : Nat) :=
      Int.mul_le_mul_of_nonneg_right (by omega) (by omega)
    have hpos : 0 ≤ k * ((1 + I.ch : Nat) : Int) := Int.mul_nonneg h0 (by omega)
    have hrec : ∀ (t2 : Tmp) (m : Nat), t2.cap = t.cap →
        ∃ r, fillCols I keep c (k * (1 + I.ch : Nat) + (1 + I.ch : Nat)) (raw + I.ch) m t2 = some r := by
      intro t2 m hc
      rw [hk1]
      refine fillCols_ok c (k + 1) (raw + I.ch) m (by omega) (by rw [hc, hkc]; exact hcap) fun i hi => ?_
      obtain ⟨x, hx, hv⟩ := hk (i + 1) (by omega)
      have e : raw + I.ch + (i : Int) * I.ch = raw + ((i + 1 : Nat) : Int) * I.ch := by push_cast; ring
      rw [e]
      exact ⟨x, hx, hv⟩
    obtain ⟨x, hx, hv⟩ := hk 0 (by omega)
    have e0 : raw + ((0 : Nat) : Int) * I.ch = raw := by simp
    rw [e0] at hx hv
    rw [fillCols, hx, Option.bind_some]
    cases x with
    | true =>
      obtain ⟨v, hv⟩ := hv rfl
      obtain ⟨t1, h1⟩ := write_ok (t := t) (a := k * (1 + I.ch : Nat)) 0 hpos (by rw [← hk1] at hle; omega)
      obtain ⟨t2, h2⟩ := writeElem_ok (a := k * (1 + I.ch : Nat) + 1) (x := v) (by omega) I.ch 0 (t := t1) (by
        rw [(write_eq h1).1]; rw [← hk1] at hle; push_cast at hle hcap ⊢; omega)
      obtain ⟨r, h3⟩ := hrec t2 (n + 1) ((writeElem_eq _ _ h2).1.trans (write_eq h1).1)
      refine ⟨r, ?_⟩
      simp only [if_true]
      rw [h1, Option.bind_some, hv, Option.bind_some, h2, Option.bind_some, h3]
    | false =>
      obtain ⟨t1, h1⟩ := write_ok (t := t) (a := k * (1 + I.ch : Nat)) 1 hpos (by rw [← hk1] at hle; omega)
      obtain ⟨r, h3⟩ := hrec t1 n (write_eq h1).1
      refine ⟨r, ?_⟩
      simp only [Bool.false_eq_true, if_false]
      rw [h1, Option.bind_some, h3]

theorem fillRows_eq {I : Img} {keep : Int → Option Bool} {w : Nat} : ∀ (c : Nat) (k raw : Int) (n : Nat) {t : Tmp}
    {r : Int × Nat × Tmp}, fillRows I keep w c (k * (1 + I.ch : Nat)) raw n t = some r →
    r.1 = (k + c * (w + 2)) * (1 + I.ch : Nat) ∧ r.2.2.cap = t.cap ∧
    (∀ b, b < k * (1 + I.ch : Nat) → r.2.2.mem b = t.mem b) ∧
    (∀ b, (∀ i j : Nat, i < c → j < w → ¬ ((k + i * (w + 2) + 1 + j) * (1 + I.ch : Nat) ≤ b ∧
        b < (k + i * (w + 2) + 1 + j + 1) * (1 + I.ch : Nat))) →
      (∀ j : Int, b ≠ j * (1 + I.ch : Nat)) → r.2.2.mem b = t.mem b) ∧
    (∀ i : Nat, i < c → r.2.2.mem ((k + i * (w + 2)) * (1 + I.ch : Nat)) = some 1 ∧
      r.2.2.mem ((k + i * (w + 2) + 1 + w) * (1 + I.ch : Nat)) = some 1) ∧
    (∀ i j : Nat, i < c → j < w → ∃ x, keep (raw + i * (I.W * I.ch) + j * I.ch) = some x ∧
      r.2.2.mem ((k + i * (w + 2) + 1 + j) * (1 + I.ch : Nat)) = some (if x then 0 else 1)) ∧
    ∃ l : List (Nat × Nat), r.2.1 = n + l.length ∧
      ∀ i j, i < c → j < w → keep (raw + i * (I.W * I.ch) + j * I.ch) = some true → (i, j) ∈ l
  | 0, k, raw, n, t, r, h => by
    cases Option.some.inj h
    exact ⟨by simp, rfl, fun b _ => rfl, fun b _ _ => rfl, fun i hi => by omega, fun i j hi => by omega, [], rfl,
      fun i j hi => by omega⟩
  | c + 1, k, raw, n, t, r, h => by
    rw [fillRows, Option.bind_eq_some_iff] at h
    obtain ⟨t1, h1, h⟩ := h
    rw [Option.bind_eq_some_iff] at h
    obtain ⟨q, h2, h⟩ := h
    rw [Option.bind_eq_some_iff] at h
    obtain ⟨t3, h3, h4⟩ := h
    obtain ⟨c1, w1, m1⟩ := write_eq h1
    have hk1 : k * ((1 + I.ch : Nat) : Int) + (1 + I.ch : Nat) = (k + 1) * (1 + I.ch : Nat) := by ring
    rw [hk1] at h2
    obtain ⟨e1, e2, e3, e4, e5, lc, e6, e7⟩ := fillCols_eq w (k + 1) raw n h2
    obtain ⟨c3, w3, m3⟩ := write_eq h3
    rw [e1, e2] at h4
    have hk2 : (k + 1 + (w : Int)) * ((1 + I.ch : Nat) : Int) + (1 + I.ch : Nat) = (k + (w + 2)) * (1 + I.ch : Nat) := by ring
    rw [hk2] at h4
    obtain ⟨f1, f2, f3, f4, f5, f6, lr, f7, f8⟩ := fillRows_eq c (k + (w + 2)) (raw + w * I.ch + ((I.W : Int) - w) * I.ch)
      q.2.2.1 h4
    have hraw : raw + (w : Int) * I.ch + ((I.W : Int) - w) * I.ch = raw + I.W * I.ch := by ring
    rw [hraw] at f6 f8
    have hs : (0 : Int) < ((1 + I.ch : Nat) : Int) := by omega
    have lt1 : ∀ a b : Int, a < b → a * ((1 + I.ch : Nat) : Int) < b * (1 + I.ch : Nat) := fun a b h =>
      Int.mul_lt_mul_of_pos_right h hs
    have le1 : ∀ a b : Int, a ≤ b → a * ((1 + I.ch : Nat) : Int) ≤ b * (1 + I.ch : Nat) := fun a b h =>
      Int.mul_le_mul_of_nonneg_right h (by omega)
    have ci : ∀ i : Nat, k + (w + 2) + (i : Int) * (w + 2) = k + ((i + 1 : Nat) : Int) * (w + 2) := by
      intro i; push_cast; ring
    have ri : ∀ i j : Nat, raw + I.W * I.ch + (i : Int) * (I.W * I.ch) + j * I.ch =
        raw + ((i + 1 : Nat) : Int) * (I.W * I.ch) + j * I.ch := by
      intro i j; push_cast; ring
    refine ⟨?_, ?_, ?_, ?_, ?_, ?_, lc.map (fun j => (0, j)) ++ lr.map (fun p => (p.1 + 1, p.2)), ?_, ?_⟩
    · rw [f1]; push_cast; ring
    · rw [f2, c3, e3, c1]
    · intro b hb
      have := lt1 k (k + (w + 2)) (by omega)
      have h' := lt1 k (k + 1) (by omega)
      have h'' := lt1 k (k + 1 + w) (by omega)
      rw [f3 b (by omega), m3 b (by rw [e1]; omega), e4 b (by omega), m1 b (by omega)]
    · intro b hb hn
      rw [f4 b (fun i j hi hj => by
          have := hb (i + 1) j (by omega) hj
          rw [ci]; exact this) hn, m3 b (by rw [e1]; exact hn _), e4 b ?_, m1 b (hn _)]
      by_contra hcon
      rw [not_or, Int.not_lt, Int.not_le] at hcon
      -- the byte lies in some cell of the row
      have hex : ∀ m : Nat, b < (k + 1 + (m : Int)) * ((1 + I.ch : Nat) : Int) → m ≤ w → False := by
        intro m
        induction m with
        | zero => intro h _; simp only [Nat.cast_zero, Int.add_zero] at h; omega
        | succ m ih =>
          intro h hm
          by_cases hlt : b < (k + 1 + (m : Int)) * ((1 + I.ch : Nat) : Int)
          · exact ih hlt (by omega)
          · refine hb 0 m (by omega) (by omega) ⟨?_, ?_⟩
            · have : k + ((0 : Nat) : Int) * (w + 2) + 1 + (m : Int) = k + 1 + m := by simp
              rw [this]; omega
            · have : k + ((0 : Nat) : Int) * (w + 2) + 1 + (m : Int) + 1 = k + 1 + ((m + 1 : Nat) : Int) := by
                push_cast; ring
              rw [this]; exact h
      exact hex w hcon.2 (Nat.le_refl w)
    · intro i hi
      cases i with
      | zero =>
        have z1 : k + ((0 : Nat) : Int) * (w + 2) = k := by simp
        rw [z1]
        constructor
        · rw [f3 _ (lt1 _ _ (by omega)), m3 _ (by rw [e1]; exact mul_ne hs (by omega)), e4 _ (.inl (lt1 _ _ (by omega))), w1]
        · rw [f3 _ (lt1 _ _ (by omega)), ← e1, w3]
      | succ i =>
        have := f5 i (by omega)
        rw [ci] at this
        exact this
    · intro i j hi hj
      cases i with
      | zero =>
        have z1 : k + ((0 : Nat) : Int) * (w + 2) = k := by simp
        have z2 : raw + ((0 : Nat) : Int) * (I.W * I.ch) = raw := by simp
        rw [z1, z2]
        obtain ⟨x, hx, hm⟩ := e5 j hj
        refine ⟨x, hx, ?_⟩
        rw [f3 _ (lt1 _ _ (by omega)), m3 _ (by rw [e1]; exact mul_ne hs (by omega)), hm]
      | succ i =>
        have := f6 i j (by omega) hj
        rw [ci, ri] at this
        exact this
    · rw [f7, e6, List.length_append, List.length_map, List.length_map]; omega
    · intro i j hi hj hk
      cases i with
      | zero =>
        have z2 : raw + ((0 : Nat) : Int) * (I.W * I.ch) = raw := by simp
        rw [z2] at hk
        exact List.mem_append_left _ (List.mem_map.2 ⟨j, e7 j hj hk, rfl⟩)
      | succ i =>
        refine List.mem_append_right _ (List.mem_map.2 ⟨(i, j), f8 i j (by omega) hj ?_, rfl⟩)
        rw [ri]; exact hk

theorem fillRows_ok {I : Img} {keep : Int → Option Bool} {w : Nat} : ∀ (c : Nat) (k raw : Int) (n : Nat) {t : Tmp}, 0 ≤ k →
    (k + c * (w + 2)) * (1 + I.ch : Nat) ≤ t.cap →
    (∀ i j : Nat, i < c → j < w → ∃ x, keep (raw + i * (I.W * I.ch) + j * I.ch) = some x ∧
      (x = true → ∃ v, I.elem (raw + i * (I.W * I.ch) + j * I.ch) = some v)) →
    ∃ r, fillRows I keep w c (k * (1 + I.ch : Nat)) raw n t = some r
  | 0, k, raw, n, t, _, _, _ => ⟨_, rfl⟩
  | c + 1, k, raw, n, t, h0, hcap, hk => by
    have hs : (0 : Int) < ((1 + I.ch : Nat) : Int) := by omega
    have le1 : ∀ a b : Int, a ≤ b → a * ((1 + I.ch : Nat) : Int) ≤ b * (1 + I.ch : Nat) := fun a b h =>
      Int.mul_le_mul_of_nonneg_right h (by omega)
    have lt1 : ∀ a b : Int, a < b → a * ((1 + I.ch : Nat) : Int) < b * (1 + I.ch : Nat) := fun a b h =>
      Int.mul_lt_mul_of_pos_right h hs
    have hk1 : k * ((1 + I.ch : Nat) : Int) + (1 + I.ch : Nat) = (k + 1) * (1 + I.ch : Nat) := by ring
    have hk2 : (k + 1 + (w : Int)) * ((1 + I.ch : Nat) : Int) + (1 + I.ch : Nat) = (k + (w + 2)) * (1 + I.ch : Nat) := by ring
    have hraw : raw + (w : Int) * I.ch + ((I.W : Int) - w) * I.ch = raw + I.W * I.ch := by ring
    have hcw : (0 : Int) ≤ (c : Int) * (w + 2) := Int.mul_nonneg (by omega) (by omega)
    have hend : (k + ((c + 1 : Nat) : Int) * (w + 2)) = k + (w + 2) + c * (w + 2) := by push_cast; ring
    rw [hend] at hcap
    have hb := le1 (k + (w + 2)) (k + (w + 2) + c * (w + 2)) (by omega)
    obtain ⟨t1, h1⟩ := write_ok (t := t) (a := k * (1 + I.ch : Nat)) 1 (Int.mul_nonneg h0 (by omega)) (by
      have := lt1 k (k + (w + 2)) (by omega); omega)
    obtain ⟨q, h2⟩ := fillCols_ok w (k + 1) raw n (I := I) (keep := keep) (t := t1) (by omega) (by
      rw [(write_eq h1).1]; have := le1 (k + 1 + w) (k + (w + 2)) (by omega); omega) (fun j hj => by
      have := hk 0 j (by omega) hj
      have z2 : raw + ((0 : Nat) : Int) * (I.W * I.ch) = raw := by simp
      rw [z2] at this
      exact this)
    obtain ⟨e1, e2, e3, _⟩ := fillCols_eq w (k + 1) raw n h2
    obtain ⟨t3, h3⟩ := write_ok (t := q.2.2.2) (a := q.1) 1 (by rw [e1]; exact Int.mul_nonneg (by omega) (by omega)) (by
      rw [e1, e3, (write_eq h1).1]
      have := lt1 (k + 1 + w) (k + (w + 2)) (by omega); omega)
    obtain ⟨r, h4⟩ := fillRows_ok c (k + (w + 2)) (raw + I.W * I.ch) q.2.2.1 (I := I) (keep := keep) (w := w) (t := t3) (by omega)
      (by rw [(write_eq h3).1, e3, (write_eq h1).1]; exact hcap)
      (fun i j hi hj => by
        have := hk (i + 1) j (by omega) hj
        have ri : raw + I.W * I.ch + (i : Int) * (I.W * I.ch) + j * I.ch =
            raw + ((i + 1 : Nat) : Int) * (I.W * I.ch) + j * I.ch := by push_cast; ring
        rw [ri]; exact this)
    refine ⟨r, ?_⟩
    rw [fillRows, h1, Option.bind_some, hk1, h2, Option.bind_some, h3, Option.bind_some, e1, e2, hk2, hraw, h4]

/-- What `fill` leaves behind. -/
theorem fill_eq {I : Img} {m : Mode} {keep : Int → Option Bool} {r : Rect} {w h n : Nat} {t : Tmp} (hw : r.width = w)
    (hh : r.height = h) (hf : fill I m keep r true = some (n, t)) :
    t.cap = ((h : Int) + 2) * (1 + I.ch : Nat) * (((w : Int) + 2) * (1 + I.ch : Nat)) ∧
    (∀ y x : Nat, y < h + 2 → x < w + 2 → (y = 0 ∨ y = h + 1 ∨ x = 0 ∨ x = w + 1) →
      t.mem (((y : Int) * (w + 2) + x) * (1 + I.ch : Nat)) = some 1) ∧
    (∀ i j : Nat, i < h → j < w → ∃ x, keep (I.ptr m r.top r.left + i * (I.W * I.ch) + j * I.ch) = some x ∧
      t.mem ((((i : Int) + 1) * (w + 2) + (j + 1)) * (1 + I.ch : Nat)) = some (if x then 0 else 1)) ∧
    (∃ l : List (Nat × Nat), n = l.length ∧
      ∀ i j, i < h → j < w → keep (I.ptr m r.top r.left + i * (I.W * I.ch) + j * I.ch) = some true → (i, j) ∈ l) ∧
    ∀ b, 1 ≤ b → b < 1 + I.ch → t.mem (((w : Int) + 2) * (1 + I.ch : Nat) + b) = none := by
  unfold fill at hf
  have eN : (r.width + 2).toNat = w + 2 := by omega
  have ew : r.width.toNat = w := by omega
  have eh : r.height.toNat = h := by omega
  rw [eN, ew, eh, hw, hh] at hf
  rw [Option.bind_eq_some_iff] at hf
  obtain ⟨p, h1, hf⟩ := hf
  rw [Option.bind_eq_some_iff] at hf
  obtain ⟨q, h2, hf⟩ := hf
  rw [if_pos rfl, Option.bind_eq_some_iff] at hf
  obtain ⟨e, h3, hf⟩ := hf
  have hn : q.2.1 = n := congrArg Prod.fst (Option.some.inj hf)
  have ht : e.2 = t := congrArg Prod.snd (Option.some.inj hf)
  rw [show (0 : Int) = 0 * ((1 + I.ch : Nat) : Int) by simp] at h1
  obtain ⟨a1, a2, a3, a4⟩ := flagRow_eq _ _ h1
  rw [a1] at h2
  obtain ⟨b1, b2, b3, b4, b5, b6, l, b7, b8⟩ := fillRows_eq _ _ _ _ h2
  rw [b1] at h3
  obtain ⟨c1, c2, c3, c4⟩ := flagRow_eq _ _ h3
  rw [ht] at c2 c3 c4
  have hs : (0 : Int) < ((1 + I.ch : Nat) : Int) := by omega
  have eq1 : ∀ i : Nat, (0 + ((w + 2 : Nat) : Int)) + (i : Int) * (w + 2) = (i + 1) * (w + 2) := by
    intro i; push_cast; ring
  have mono : ∀ i : Nat, i < h → ((i : Int) + 1) * (w + 2) + (w + 2) ≤ (h + 1) * (w + 2) := by
    intro i hi
    have : ((i : Int) + 2) * (w + 2) ≤ (h + 1) * (w + 2) := Int.mul_le_mul_of_nonneg_right (by omega) (by omega)
    linarith
  have pos : ∀ i : Nat, (w : Int) + 2 ≤ ((i : Int) + 1) * (w + 2) := by
    intro i
    have : (1 : Int) * (w + 2) ≤ ((i : Int) + 1) * (w + 2) := Int.mul_le_mul_of_nonneg_right (by omega) (by omega)
    linarith
  -- the last row leaves the cells before it alone
  have keep3 : ∀ k : Int, k < ((h : Int) + 1) * (w + 2) → t.mem (k * (1 + I.ch : Nat)) = q.2.2.mem (k * (1 + I.ch : Nat)) := by
    intro k hk
    refine c3 _ fun j hj1 _ => mul_ne hs ?_
    rw [eq1] at hj1
    omega
  refine ⟨?_, ?_, ?_, ⟨l, by rw [← hn, b7, Nat.zero_add], b8⟩, ?_⟩
  · rw [c2, b2, a2]
  · intro y x hy hx hb
    by_cases h0 : y = 0
    · subst h0
      have e0 : ((0 : Nat) : Int) * ((w : Int) + 2) + x = x := by simp
      have l0 := pos h
      rw [e0, keep3 _ (by omega), b3 _ (Int.mul_lt_mul_of_pos_right (by omega) hs), a4 _ (by omega) (by omega)]
    · by_cases h4 : y = h + 1
      · subst h4
        refine c4 _ ?_ ?_ <;> rw [eq1] <;> push_cast <;> omega
      · obtain ⟨i, rfl⟩ : ∃ i, y = i + 1 := ⟨y - 1, by omega⟩
        have hi : i < h := by omega
        have := b5 i hi
        rw [eq1] at this
        have hm := mono i hi
        rcases (by omega : x = 0 ∨ x = w + 1) with rfl | rfl
        · have e0 : ((i + 1 : Nat) : Int) * ((w : Int) + 2) + ((0 : Nat) : Int) = ((i : Int) + 1) * (w + 2) := by push_cast; ring
          rw [e0, keep3 _ (by omega), this.1]
        · have e0 : ((i + 1 : Nat) : Int) * ((w : Int) + 2) + ((w + 1 : Nat) : Int) = ((i : Int) + 1) * (w + 2) + 1 + w := by
            push_cast; ring
          rw [e0, keep3 _ (by omega), this.2]
  · intro i j hi hj
    obtain ⟨x, hx, hm⟩ := b6 i j hi hj
    rw [eq1] at hm
    have hmo := mono i hi
    refine ⟨x, hx, ?_⟩
    rw [show ((i : Int) + 1) * (w + 2) + (j + 1) = (i + 1) * (w + 2) + 1 + j by ring, keep3 _ (by omega), hm]
  · intro b hb1 hb2
    have hnot : ∀ j : Int, ((w : Int) + 2) * ((1 + I.ch : Nat) : Int) + b ≠ j * (1 + I.ch : Nat) := by
      intro j hj
      have e1 : (j - (w + 2)) * ((1 + I.ch : Nat) : Int) = b := by rw [Int.sub_mul, ← hj]; ring
      by_cases hp : j - (w + 2) ≤ 0
      · have := Int.mul_nonneg (show 0 ≤ -(j - ((w : Int) + 2)) by omega) (Int.le_of_lt hs)
        rw [Int.neg_mul] at this
        omega
      · have := Int.mul_le_mul_of_nonneg_right (show 1 ≤ j - ((w : Int) + 2) by omega) (Int.le_of_lt hs)
        omega
    rw [c3 _ (fun j _ _ => hnot j), b4 _ (fun i j hi hj hc => ?_) hnot, a3 _ (fun j _ _ => hnot j)]
    rw [eq1] at hc
    have hp := pos i
    have := Int.mul_le_mul_of_nonneg_right (show (w : Int) + 2 + 1 ≤ ((i : Int) + 1) * (w + 2) + 1 + j by omega) (Int.le_of_lt hs)
    rw [Int.add_mul, Int.one_mul] at this
    omega

theorem fill_ok {I : Img} {m : Mode} {keep : Int → Option Bool} {r : Rect} {w h : Nat} (hw : r.width = w) (hh : r.height = h)
    (hk : ∀ i j : Nat, i < h → j < w → ∃ x, keep (I.ptr m r.top r.left + i * (I.W * I.ch) + j * I.ch) = some x ∧
      (x = true → ∃ v, I.elem (I.ptr m r.top r.left + i * (I.W * I.ch) + j * I.ch) = some v)) :
    ∃ n t, fill I m keep r true = some (n, t) := by
  unfold fill
  have eN : (r.width + 2).toNat = w + 2 := by omega
  have ew : r.width.toNat = w := by omega
  have eh : r.height.toNat = h := by omega
  rw [eN, ew, eh, hw, hh]
  have hs : (0 : Int) < ((1 + I.ch : Nat) : Int) := by omega
  have hcap : (((h : Int) + 2) * (w + 2)) * ((1 + I.ch : Nat) : Int) ≤
      ((h : Int) + 2) * (1 + I.ch : Nat) * (((w : Int) + 2) * (1 + I.ch : Nat)) := by
    have e : ((h : Int) + 2) * ((1 + I.ch : Nat) : Int) * (((w : Int) + 2) * (1 + I.ch : Nat)) =
        (((h : Int) + 2) * (w + 2)) * (1 + I.ch : Nat) * (1 + I.ch : Nat) := by ring
    rw [e]
    have h1 : 0 ≤ (((h : Int) + 2) * (w + 2)) * ((1 + I.ch : Nat) : Int) :=
      Int.mul_nonneg (Int.mul_nonneg (by omega) (by omega)) (by omega)
    have := Int.mul_le_mul_of_nonneg_left (show (1 : Int) ≤ ((1 + I.ch : Nat) : Int) by omega) h1
    rw [Int.mul_one] at this
    exact this
  have bound : ∀ a : Int, a ≤ ((h : Int) + 2) * (w + 2) → a * ((1 + I.ch : Nat) : Int) ≤
      ((h : Int) + 2) * (1 + I.ch : Nat) * (((w : Int) + 2) * (1 + I.ch : Nat)) := fun a ha =>
    Int.le_trans (Int.mul_le_mul_of_nonneg_right ha (by omega)) hcap
  have hhw : 0 ≤ (h : Int) * (w + 2) := Int.mul_nonneg (by omega) (by omega)
  have ex : ((h : Int) + 2) * (w + 2) = h * (w + 2) + (w + 2) + (w + 2) := by ring
  obtain ⟨p, h1⟩ := flagRow_ok hs (w + 2) 0 (t := ⟨((h : Int) + 2) * (1 + I.ch : Nat) * (((w : Int) + 2) * (1 + I.ch : Nat)),
    fun _ => none⟩) (by omega) (bound _ (by push_cast; omega))
  obtain ⟨a1, a2, _⟩ := flagRow_eq _ _ h1
  obtain ⟨q, h2⟩ := fillRows_ok (I := I) (keep := keep) (w := w) h (0 + ((w + 2 : Nat) : Int)) (I.ptr m r.top r.left) 0 (t := p.2)
    (by omega) (by rw [a2]; exact bound _ (by push_cast; omega)) hk
  obtain ⟨b1, b2, _⟩ := fillRows_eq _ _ _ _ h2
  obtain ⟨e, h3⟩ := flagRow_ok hs (w + 2) (0 + ((w + 2 : Nat) : Int) + h * (w + 2)) (t := q.2.2) (by omega) (by
    rw [b2, a2]; exact bound _ (by push_cast; omega))
  refine ⟨q.2.1, e.2, ?_⟩
  rw [Int.zero_mul] at h1
  rw [h1, Option.bind_some, a1, h2, Option.bind_some, if_pos rfl, b1, h3, Option.bind_some]

/-- The kept points of the active rectangle. -/
def Kept (I : Img) (m : Mode) (keep : Int → Option Bool) (r : Rect) (p : Pt) : Prop :=
  (r.left ≤ p.1 ∧ p.1 < r.left + r.width ∧ r.top ≤ p.2 ∧ p.2 < r.top + r.height) ∧
    keep (I.ptr m r.top r.left + (p.2 - r.top) * (I.W * I.ch) + (p.1 - r.left) * I.ch) = some true

theorem flags_ok {I : Img} {m : Mode} {keep : Int → Option Bool} {r : Rect} {w h n area : Nat} {t : Tmp} {o : Int} {ix : Bool}
    (hw : r.width = w) (hh : r.height = h) (hf : fill I m keep r true = some (n, t)) :
    Flags ⟨1 + I.ch, r, area, o, ix⟩ (Kept I m keep r) [] t := by
  obtain ⟨h1, h2, h3, _, _⟩ := fill_eq hw hh hf
  have addr : ∀ p : Pt, ∀ y x : Nat, p.2 - r.top + 1 = y → p.1 - r.left + 1 = x →
      Env.addr ⟨1 + I.ch, r, area, o, ix⟩ p = ((y : Int) * (w + 2) + x) * (1 + I.ch : Nat) := by
    intro p y x e1 e2
    unfold Env.addr
    dsimp only
    rw [e1, e2, hw]
  have inner : ∀ p : Pt, r.left ≤ p.1 → p.1 < r.left + w → r.top ≤ p.2 → p.2 < r.top + h →
      ∃ x, keep (I.ptr m r.top r.left + (p.2 - r.top) * (I.W * I.ch) + (p.1 - r.left) * I.ch) = some x ∧
        t.mem (Env.addr ⟨1 + I.ch, r, area, o, ix⟩ p) = some (if x then 0 else 1) := by
    intro p a b c d
    obtain ⟨x, hx, hm⟩ := h3 (p.2 - r.top).toNat (p.1 - r.left).toNat (by omega) (by omega)
    have e1 : (((p.2 - r.top).toNat : Nat) : Int) = p.2 - r.top := by omega
    have e2 : (((p.1 - r.left).toNat : Nat) : Int) = p.1 - r.left := by omega
    rw [e1, e2] at hx hm
    refine ⟨x, hx, ?_⟩
    rw [← hm, Env.addr]
    dsimp only
    rw [hw]
  refine ⟨?_, ?_, ?_⟩
  · dsimp only
    rw [h1, hh, hw]
    have e : ((h : Int) + 2) * ((1 + I.ch : Nat) : Int) * (((w : Int) + 2) * (1 + I.ch : Nat)) =
        (((h : Int) + 2) * (w + 2)) * (1 + I.ch : Nat) * (1 + I.ch : Nat) := by ring
    rw [e]
    have h1 : 0 ≤ (((h : Int) + 2) * (w + 2)) * ((1 + I.ch : Nat) : Int) :=
      Int.mul_nonneg (Int.mul_nonneg (by omega) (by omega)) (by omega)
    have := Int.mul_le_mul_of_nonneg_left (show (1 : Int) ≤ ((1 + I.ch : Nat) : Int) by omega) h1
    rw [Int.mul_one] at this
    exact this
  · rintro p _ ⟨⟨a, b, c, d⟩, hk⟩ _
    obtain ⟨x, hx, hm⟩ := inner p a (by omega) c (by omega)
    rw [hk] at hx
    rw [hm, ← Option.some.inj hx]; rfl
  · rintro p ⟨a, b, c, d⟩ hn
    dsimp only at a b c d
    have hn : ¬ Kept I m keep r p := by simpa using hn
    by_cases hin : r.left ≤ p.1 ∧ p.1 < r.left + w ∧ r.top ≤ p.2 ∧ p.2 < r.top + h
    · obtain ⟨a', b', c', d'⟩ := hin
      obtain ⟨x, hx, hm⟩ := inner p a' b' c' d'
      rw [hm]
      cases x with
      | false => rfl
      | true => exact absurd ⟨⟨a', by omega, c', by omega⟩, hx⟩ hn
    · rw [addr p (p.2 - r.top + 1).toNat (p.1 - r.left + 1).toNat (by omega) (by omega)]
      exact h2 _ _ (by omega) (by omega) (by omega)

/-- The points of the active rectangle are at most as many as a list that has all their coordinates. -/
theorem area_ok {r : Rect} {w h : Nat} (hw : r.width = w) (hh : r.height = h) {K : Pt → Prop}
    (hK : ∀ p, K p → r.left ≤ p.1 ∧ p.1 < r.left + r.width ∧ r.top ≤ p.2 ∧ p.2 < r.top + r.height) {l : List (Nat × Nat)}
    (hl : ∀ i j : Nat, i < h → j < w → K (r.left + j, r.top + i) → (i, j) ∈ l) (L : List Pt) (hL : L.Nodup)
    (hLK : ∀ p ∈ L, K p) : L.length ≤ l.length := by
  have hnd : (L.map fun p => ((p.2 - r.top).toNat, (p.1 - r.left).toNat)).Nodup := by
    refine List.Nodup.map_on ?_ hL
    intro p hp q hq e
    have e1 := congrArg Prod.fst e
    have e2 := congrArg Prod.snd e
    dsimp only at e1 e2
    obtain ⟨a, _, b, _⟩ := hK p (hLK p hp)
    obtain ⟨c, _, d, _⟩ := hK q (hLK q hq)
    exact Prod.ext (by omega) (by omega)
  have hsub : (L.map fun p => ((p.2 - r.top).toNat, (p.1 - r.left).toNat)) ⊆ l := by
    intro x hx
    obtain ⟨p, hp, rfl⟩ := List.mem_map.1 hx
    obtain ⟨a, b, c, d⟩ := hK p (hLK p hp)
    refine hl _ _ (by omega) (by omega) ?_
    have : (r.left + (((p.1 - r.left).toNat : Nat) : Int), r.top + (((p.2 - r.top).toNat : Nat) : Int)) = p :=
      Prod.ext (by dsimp only; omega) (by dsimp only; omega)
    rw [this]
    exact hLK p hp
  have := (List.subperm_of_subset hnd hsub).length_le
  rwa [List.length_map] at this

end Verif.Components
