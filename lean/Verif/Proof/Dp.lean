import Verif.Model.Dp
import Verif.Spec.Dp

/-!
# The dynamic programming helpers are right (where they are)
-/

namespace Verif.Dp

open Verif.Spec
open Verif.Sorting (rd)

/-! ## Maximum sum of a run -/

structure KadInv (v : Nat → Int) (i : Nat) (s : Kad) : Prop where
  tmpEnd : s.tmpBegin + s.tmpLen = i
  tmpPos : 1 ≤ s.tmpLen
  tmp : s.tmp = runSum v s.tmpBegin s.tmpLen
  tmpBest : ∀ b l, 1 ≤ l → b + l = i → runSum v b l ≤ s.tmp
  pos : 1 ≤ s.len
  le : s.begin + s.len ≤ i
  sum : s.maxSum = runSum v s.begin s.len
  best : ∀ b l, 1 ≤ l → b + l ≤ i → runSum v b l ≤ s.maxSum

theorem kadStep_ok {v : Nat → Int} {i : Nat} {s : Kad} (h : KadInv v i s) : KadInv v (i + 1) (kadStep s i (v i)) := by
  have hstep : ∀ b l, 1 ≤ l → b + l = i + 1 → runSum v b l ≤ s.tmp + v i ∨ (l = 1 ∧ runSum v b l = v i) := by
    intro b l hl e
    obtain ⟨l, rfl⟩ : ∃ l', l = l' + 1 := ⟨l - 1, by omega⟩
    have eb : b + l = i := by omega
    rw [runSum, eb]
    by_cases h0 : l = 0
    · subst h0; exact .inr ⟨rfl, by simp [runSum]⟩
    · have := h.tmpBest b l (by omega) eb
      exact .inl (by omega)
  have h1 : ∃ s', (if v i > s.tmp + v i then ({ s with tmp := v i, tmpBegin := i, tmpLen := 1 } : Kad)
        else { s with tmp := s.tmp + v i, tmpLen := s.tmpLen + 1 }) = s' ∧ s'.tmpBegin + s'.tmpLen = i + 1 ∧ 1 ≤ s'.tmpLen ∧
      s'.tmp = runSum v s'.tmpBegin s'.tmpLen ∧ (∀ b l, 1 ≤ l → b + l = i + 1 → runSum v b l ≤ s'.tmp) ∧ s'.maxSum = s.maxSum ∧
      s'.begin = s.begin ∧ s'.len = s.len := by
    by_cases hc : v i > s.tmp + v i
    · rw [if_pos hc]
      refine ⟨_, rfl, rfl, Nat.le_refl 1, by simp [runSum], fun b l hl e => ?_, rfl, rfl, rfl⟩
      dsimp only
      rcases hstep b l hl e with h' | h' <;> omega
    · rw [if_neg hc]
      refine ⟨_, rfl, ?_, ?_, ?_, fun b l hl e => ?_, rfl, rfl, rfl⟩ <;> dsimp only
      · have := h.tmpEnd; omega
      · omega
      · rw [runSum, h.tmpEnd, h.tmp]
      · rcases hstep b l hl e with h' | h' <;> omega
  obtain ⟨s', e, a1, a2, a3, a4, a5, a6, a7⟩ := h1
  have e2 : kadStep s i (v i) = if s'.tmp > s'.maxSum then { s' with maxSum := s'.tmp, begin := s'.tmpBegin, len := s'.tmpLen } else s' := by
    rw [← e]; rfl
  rw [e2]
  have hall : ∀ b l, 1 ≤ l → b + l ≤ i + 1 → runSum v b l ≤ s'.tmp ∨ runSum v b l ≤ s.maxSum := by
    intro b l hl hle
    by_cases he : b + l = i + 1
    · exact .inl (a4 b l hl he)
    · exact .inr (h.best b l hl (by omega))
  by_cases hc : s'.tmp > s'.maxSum
  · rw [if_pos hc]
    refine ⟨a1, a2, a3, a4, a2, by dsimp only; omega, a3, fun b l hl hle => ?_⟩
    dsimp only
    rcases hall b l hl hle with h' | h' <;> omega
  · rw [if_neg hc]
    refine ⟨a1, a2, a3, a4, by rw [a7]; exact h.pos, by rw [a6, a7]; have := h.le; omega, by rw [a5, a6, a7]; exact h.sum, fun b l hl hle => ?_⟩
    rcases hall b l hl hle with h' | h' <;> omega

theorem kadLoop_ok {n : Nat} {v : Nat → Int} : ∀ (k i : Nat) (s : Kad), i + k = n → KadInv v i s →
    ∃ s', kadLoop n v k i s = some s' ∧ KadInv v n s'
  | 0, i, s, e, h => ⟨s, rfl, by rw [← e]; exact h⟩
  | k + 1, i, s, e, h => by
    rw [kadLoop, rd, if_pos (by omega)]
    exact kadLoop_ok k (i + 1) _ (by omega) (kadStep_ok h)

theorem maxSum_ok {n : Nat} (hn : 0 < n) (v : Nat → Int) : ∃ s, maxSum n v = some s ∧ KadInv v n s := by
  rw [maxSum, rd, if_pos hn]
  refine kadLoop_ok (n - 1) 1 _ (by omega) ⟨rfl, Nat.le_refl 1, by simp [runSum], ?_, Nat.le_refl 1, Nat.le_refl 1, by simp [runSum], ?_⟩
  · intro b l hl e
    have h1 : b = 0 := by omega
    have h2 : l = 1 := by omega
    subst h1 h2
    simp [runSum]
  · intro b l hl e
    have h1 : b = 0 := by omega
    have h2 : l = 1 := by omega
    subst h1 h2
    simp [runSum]

/-! ## Longest common substring -/

variable {T : Type} [DecidableEq T]

/-- Length of the longest common run that ends at `i` and `j`. -/
def suff (a b : Nat → T) : Nat → Nat → Nat
  | i, 0 => if a i = b 0 then 1 else 0
  | 0, j + 1 => if a 0 = b (j + 1) then 1 else 0
  | i + 1, j + 1 => if a (i + 1) = b (j + 1) then suff a b i j + 1 else 0

theorem suff_le (a b : Nat → T) : ∀ i j, suff a b i j ≤ i + 1 ∧ suff a b i j ≤ j + 1
  | i, 0 => by rw [suff]; split <;> omega
  | 0, j + 1 => by rw [suff]; split <;> omega
  | i + 1, j + 1 => by
    have := suff_le a b i j
    rw [suff]; split <;> omega

theorem suff_common (a b : Nat → T) : ∀ i j t, t < suff a b i j → a (i - t) = b (j - t)
  | i, 0, t, h => by
    rw [suff] at h
    split at h
    · rename_i e
      have : t = 0 := by omega
      subst this; exact e
    · omega
  | 0, j + 1, t, h => by
    rw [suff] at h
    split at h
    · rename_i e
      have : t = 0 := by omega
      subst this; exact e
    · omega
  | i + 1, j + 1, t, h => by
    rw [suff] at h
    split at h
    · rename_i e
      cases t with
      | zero => exact e
      | succ t =>
        have := suff_common a b i j t (by omega)
        rw [Nat.add_sub_add_right, Nat.add_sub_add_right]; exact this
    · omega

theorem suff_best (a b : Nat → T) : ∀ i j len, len ≤ i + 1 → len ≤ j + 1 → (∀ t, t < len → a (i - t) = b (j - t)) → len ≤ suff a b i j
  | i, 0, len, h1, h2, h => by
    rw [suff]
    rcases Nat.eq_zero_or_pos len with h0 | h0
    · omega
    · have h' := h 0 h0
      simp only [Nat.sub_zero] at h'
      rw [if_pos h']; omega
  | 0, j + 1, len, h1, h2, h => by
    rw [suff]
    rcases Nat.eq_zero_or_pos len with h0 | h0
    · omega
    · have h' := h 0 h0
      simp only [Nat.sub_zero] at h'
      rw [if_pos h']; omega
  | i + 1, j + 1, len, h1, h2, h => by
    rw [suff]
    rcases Nat.eq_zero_or_pos len with h0 | h0
    · omega
    · have h' := h 0 h0
      simp only [Nat.sub_zero] at h'
      rw [if_pos h']
      have := suff_best a b i j (len - 1) (by omega) (by omega) (fun t ht => by
        have := h (t + 1) (by omega)
        rw [Nat.add_sub_add_right, Nat.add_sub_add_right] at this; exact this)
      omega

/-- The matrix after the cells of the columns before `i`, and those of column `i` in the rows before `j`, are done. -/
structure LcsInv (na nb : Nat) (a b : Nat → T) (i j : Nat) (s : Lcs) : Prop where
  cell : ∀ x y, x < na → y < nb → (x < i ∨ (x = i ∧ y < j)) → s.mat (y * na + x) = suff a b x y
  rest : ∀ x y, x < na → y < nb → i ≤ x → 0 < x → (x = i → j ≤ y) → s.mat (y * na + x) = 0
  best : ∀ x y, x < na → 1 ≤ y → y < nb → (x < i ∨ (x = i ∧ y < j)) → suff a b x y ≤ s.len
  found : (s.len = 0 ∧ s.aBegin = -1 ∧ s.bBegin = -1) ∨
    ∃ x y, x < na ∧ 1 ≤ y ∧ y < nb ∧ s.len = suff a b x y ∧ 1 ≤ s.len ∧ s.aBegin = (x : Int) - s.len + 1 ∧ s.bBegin = (y : Int) - s.len + 1

theorem flat_inj {na x y x' y' : Nat} (h : x < na) (h' : x' < na) (e : y * na + x = y' * na + x') : x = x' ∧ y = y' := by
  have hpos : 0 < na := by omega
  have e1 : (y * na + x) % na = x := by rw [Nat.mul_comm, Nat.mul_add_mod, Nat.mod_eq_of_lt h]
  have e2 : (y' * na + x') % na = x' := by rw [Nat.mul_comm, Nat.mul_add_mod, Nat.mod_eq_of_lt h']
  have e3 : (y * na + x) / na = y := by rw [Nat.mul_comm, Nat.mul_add_div hpos, Nat.div_eq_of_lt h]; omega
  have e4 : (y' * na + x') / na = y' := by rw [Nat.mul_comm, Nat.mul_add_div hpos, Nat.div_eq_of_lt h']; omega
  rw [e] at e1 e3
  exact ⟨e1.symm.trans e2, e3.symm.trans e4⟩

theorem flat_lt {na nb x y : Nat} (h : x < na) (h' : y < nb) : y * na + x < na * nb := by
  have : (y + 1) * na ≤ nb * na := Nat.mul_le_mul_right _ h'
  rw [Nat.succ_mul] at this
  rw [Nat.mul_comm na nb]
  omega

theorem suff_zero_left (a b : Nat → T) (y : Nat) : suff a b 0 y = if a 0 = b y then 1 else 0 := by
  cases y <;> rfl

theorem lcsCell_ok {na nb : Nat} {a b : Nat → T} {i j : Nat} {s : Lcs} (hi : i < na) (hj : 1 ≤ j) (hjb : j < nb)
    (h : LcsInv na nb a b i j s) : ∃ s', lcsCell na nb a b i j s = some s' ∧ LcsInv na nb a b i (j + 1) s' := by
  have hmat : ∃ m2, ((rd na a 0).bind fun a0 => (rd nb b j).bind fun bj =>
      (wr (na * nb) s.mat (j * na) (if a0 = bj then 1 else 0)).bind fun m1 =>
      (if i > 0 ∧ j > 0 then
        (rd na a i).bind fun ai =>
          if ai = bj then
            (rd (na * nb) m1 ((j - 1) * na + i - 1)).bind fun x => wr (na * nb) m1 (j * na + i) (x + 1)
          else some m1
        else some m1)) = some m2 ∧
      (∀ x y, x < na → y < nb → (x < i ∨ (x = i ∧ y < j + 1)) → m2 (y * na + x) = suff a b x y) ∧
      ∀ x y, x < na → y < nb → i ≤ x → 0 < x → (x = i → j + 1 ≤ y) → m2 (y * na + x) = 0 := by
    rw [rd, if_pos (by omega), rd, if_pos hjb]
    simp only [Option.bind_some]
    have hf0 := flat_lt (na := na) (nb := nb) (x := 0) (y := j) (by omega) hjb
    rw [Nat.add_zero] at hf0
    rw [wr, if_pos hf0]
    simp only [Option.bind_some]
    -- the matrix after the first write
    generalize hm1 : (fun y => if y = j * na then (if a 0 = b j then 1 else 0) else s.mat y) = m1
    have hm1a : ∀ x y, x < na → y < nb → (x < i ∨ (x = i ∧ y < j)) ∨ (x = 0 ∧ y = j) → m1 (y * na + x) = suff a b x y := by
      intro x y hx hy hc
      rw [← hm1]
      dsimp only
      by_cases he : y * na + x = j * na
      · obtain ⟨h1, h2⟩ := flat_inj (x' := 0) (y' := j) hx (by omega) (by rw [Nat.add_zero]; exact he)
        subst h1 h2
        rw [if_pos he, suff_zero_left]
      · rw [if_neg he]
        rcases hc with hc | ⟨rfl, rfl⟩
        · exact h.cell x y hx hy hc
        · exact absurd rfl he
    have hm1b : ∀ x y, x < na → y < nb → 0 < x → m1 (y * na + x) = s.mat (y * na + x) := by
      intro x y hx hy h0
      rw [← hm1]
      dsimp only
      rw [if_neg]
      intro he
      have := (flat_inj (x' := 0) (y' := j) hx (by omega) (by rw [Nat.add_zero]; exact he)).1
      omega
    by_cases h0 : i > 0 ∧ j > 0
    · rw [if_pos h0, rd, if_pos hi]
      simp only [Option.bind_some]
      obtain ⟨i, rfl⟩ : ∃ i', i = i' + 1 := ⟨i - 1, by omega⟩
      obtain ⟨j, rfl⟩ : ∃ j', j = j' + 1 := ⟨j - 1, by omega⟩
      by_cases he : a (i + 1) = b (j + 1)
      · rw [if_pos he]
        have e1 : (j + 1 - 1) * na + (i + 1) - 1 = j * na + i := by rw [Nat.add_sub_cancel]; omega
        rw [e1, rd, if_pos (flat_lt (by omega) (by omega))]
        simp only [Option.bind_some]
        rw [wr, if_pos (flat_lt hi hjb)]
        refine ⟨_, rfl, ?_, ?_⟩
        · intro x y hx hy hc
          by_cases hxy : y * na + x = (j + 1) * na + (i + 1)
          · obtain ⟨h1, h2⟩ := flat_inj hx hi hxy
            subst h1 h2
            rw [if_pos rfl, hm1a i j (by omega) (by omega) (.inl (.inl (by omega))), suff, if_pos he]
          · rw [if_neg hxy]
            refine hm1a x y hx hy (.inl ?_)
            rcases hc with hc | ⟨rfl, hc⟩
            · exact .inl hc
            · by_cases hy2 : y = j + 1
              · subst hy2; exact absurd rfl hxy
              · exact .inr ⟨rfl, by omega⟩
        · intro x y hx hy hix h0x hc
          rw [if_neg, hm1b x y hx hy h0x]
          · exact h.rest x y hx hy hix h0x (fun e => by have := hc e; omega)
          · intro he
            obtain ⟨h1, h2⟩ := flat_inj hx hi he
            have := hc h1
            omega
      · rw [if_neg he]
        refine ⟨_, rfl, ?_, ?_⟩
        · intro x y hx hy hc
          by_cases hxy : x = i + 1 ∧ y = j + 1
          · obtain ⟨rfl, rfl⟩ := hxy
            rw [hm1b _ _ hx hy (by omega), suff, if_neg he]
            exact h.rest _ _ hx hy (Nat.le_refl _) (by omega) (fun _ => Nat.le_refl _)
          · refine hm1a x y hx hy (.inl ?_)
            rcases hc with hc | ⟨rfl, hc⟩
            · exact .inl hc
            · exact .inr ⟨rfl, by omega⟩
        · intro x y hx hy hix h0x hc
          rw [hm1b x y hx hy h0x]
          exact h.rest x y hx hy hix h0x (fun e => by have := hc e; omega)
    · rw [if_neg h0]
      have hi0 : i = 0 := by omega
      subst hi0
      refine ⟨_, rfl, ?_, ?_⟩
      · intro x y hx hy hc
        refine hm1a x y hx hy ?_
        rcases hc with hc | ⟨rfl, hc⟩
        · omega
        · by_cases hy2 : y = j
          · exact .inr ⟨rfl, hy2⟩
          · exact .inl (.inr ⟨rfl, by omega⟩)
      · intro x y hx hy hix h0x hc
        rw [hm1b x y hx hy h0x]
        exact h.rest x y hx hy hix h0x (fun e => by omega)
  obtain ⟨m2, em, hc, hr⟩ := hmat
  have hx := hc i j hi hjb (.inr ⟨rfl, by omega⟩)
  have hbest : ∀ L, s.len ≤ L → suff a b i j ≤ L → ∀ x y, x < na → 1 ≤ y → y < nb → (x < i ∨ (x = i ∧ y < j + 1)) → suff a b x y ≤ L := by
    intro L h1 h2 x y hx hy1 hy hcc
    by_cases he : x = i ∧ y = j
    · obtain ⟨rfl, rfl⟩ := he; exact h2
    · exact Nat.le_trans (h.best x y hx hy1 hy (by omega)) h1
  have e : lcsCell na nb a b i j s = (some m2).bind fun m2 => (rd (na * nb) m2 (j * na + i)).bind fun x =>
      if s.len < x then some ⟨m2, x, (i : Int) - x + 1, (j : Int) - x + 1⟩ else some { s with mat := m2 } := by
    rw [← em, lcsCell]
    simp only [Option.bind_assoc]
  rw [e]
  simp only [Option.bind_some]
  rw [rd, if_pos (flat_lt hi hjb)]
  simp only [Option.bind_some]
  rw [hx]
  by_cases hl : s.len < suff a b i j
  · rw [if_pos hl]
    refine ⟨_, rfl, hc, hr, hbest (suff a b i j) (by omega) (Nat.le_refl _), .inr ⟨i, j, hi, hj, hjb, rfl, ?_, rfl, rfl⟩⟩
    dsimp only; omega
  · rw [if_neg hl]
    exact ⟨_, rfl, hc, hr, hbest s.len (Nat.le_refl _) (by omega), h.found⟩

theorem lcsInner_ok {na nb : Nat} {a b : Nat → T} {i : Nat} (hi : i < na) : ∀ (k j : Nat) (s : Lcs), 1 ≤ j → j + k = nb →
    LcsInv na nb a b i j s → ∃ s', lcsInner na nb a b i k j s = some s' ∧ LcsInv na nb a b i nb s'
  | 0, j, s, _, e, h => ⟨s, rfl, by rw [Nat.add_zero] at e; subst e; exact h⟩
  | k + 1, j, s, h1, e, h => by
    obtain ⟨s1, e1, hs1⟩ := lcsCell_ok hi h1 (by omega) h
    rw [lcsInner, e1]
    exact lcsInner_ok hi k (j + 1) s1 (by omega) (by omega) hs1

theorem lcsOuter_ok {na nb : Nat} {a b : Nat → T} (hb : 0 < nb) : ∀ (k i : Nat) (s : Lcs), i + k = na →
    LcsInv na nb a b i 0 s → ∃ s', lcsOuter na nb a b k i s = some s' ∧ LcsInv na nb a b na 0 s'
  | 0, i, s, e, h => ⟨s, rfl, by rw [Nat.add_zero] at e; subst e; exact h⟩
  | k + 1, i, s, e, h => by
    have hi : i < na := by omega
    have hf := flat_lt (na := na) (nb := nb) (x := i) (y := 0) hi hb
    rw [Nat.zero_mul, Nat.zero_add] at hf
    rw [lcsOuter, rd, if_pos hb, rd, if_pos hi]
    simp only [Option.bind_some]
    rw [wr, if_pos hf]
    simp only [Option.bind_some]
    have hone : ∀ x y, x < na → (y * na + x = i ↔ x = i ∧ y = 0) := by
      intro x y hx
      constructor
      · intro e
        exact flat_inj (x' := i) (y' := 0) hx hi (by rw [Nat.zero_mul, Nat.zero_add]; exact e)
      · rintro ⟨rfl, rfl⟩; simp
    obtain ⟨s1, e1, h1⟩ := lcsInner_ok (a := a) (b := b) hi (nb - 1) 1
      { s with mat := fun y => if y = i then (if b 0 = a i then 1 else 0) else s.mat y } (Nat.le_refl 1) (by omega)
      ⟨by
        intro x y hx hy hc
        dsimp only
        by_cases he : y * na + x = i
        · obtain ⟨rfl, rfl⟩ := (hone x y hx).1 he
          rw [if_pos he]
          simp only [suff, eq_comm]
        · rw [if_neg he]
          refine h.cell x y hx hy ?_
          rcases hc with hc | ⟨rfl, hc⟩
          · exact .inl hc
          · exact absurd ((hone x y hx).2 ⟨rfl, by omega⟩) he, by
        intro x y hx hy hix h0 hc
        dsimp only
        rw [if_neg, h.rest x y hx hy hix h0 (fun _ => Nat.zero_le _)]
        intro he
        obtain ⟨h2, h3⟩ := (hone x y hx).1 he
        have := hc h2
        omega, by
        intro x y hx hy1 hy hc
        exact h.best x y hx hy1 hy (by omega), h.found⟩
    rw [e1]
    refine lcsOuter_ok hb k (i + 1) s1 (by omega) ⟨?_, ?_, ?_, h1.found⟩
    · intro x y hx hy hc
      exact h1.cell x y hx hy (by omega)
    · intro x y hx hy hix h0 hc
      exact h1.rest x y hx hy (by omega) h0 (by omega)
    · intro x y hx hy1 hy hc
      exact h1.best x y hx hy1 hy (by omega)

theorem lcs_ok {na nb : Nat} (hb : 0 < nb) (a b : Nat → T) : ∃ s, lcs na nb a b = some s ∧ LcsInv na nb a b na 0 s :=
  lcsOuter_ok hb na 0 _ (by omega)
    ⟨fun x y _ _ h => by omega, fun _ _ _ _ _ _ _ => rfl, fun x y _ _ _ h => by omega, .inl ⟨rfl, rfl, rfl⟩⟩

/-! ## Knapsack -/

theorem chosen_update {n : Nat} {x : Nat → Int} {s s' : Nat → Bool} (h : ∀ i, i < n → s i = s' i) : chosen n x s = chosen n x s' := by
  induction n with
  | zero => rfl
  | succ n ih => rw [chosen, chosen, ih (fun i hi => h i (by omega)), h n (by omega)]

theorem chosen_nonneg {n : Nat} {x : Nat → Int} (h : ∀ i, i < n → 0 ≤ x i) (s : Nat → Bool) : 0 ≤ chosen n x s := by
  induction n with
  | zero => exact Int.le_refl 0
  | succ n ih =>
    have := ih (fun i hi => h i (by omega))
    have := h n (by omega)
    rw [chosen]; split <;> omega

theorem _root_.Verif.Spec.IsBest.without {n : Nat} {ws vs : Nat → Int} {w V : Int} (h : IsBest n ws vs w V) (hw : ∀ i, i ≤ n → 0 ≤ ws i)
    (hlt : w < ws n) : IsBest (n + 1) ws vs w V := by
  obtain ⟨⟨s, h1, h2⟩, h3⟩ := h
  refine ⟨⟨fun i => if i = n then false else s i, ?_, ?_⟩, ?_⟩
  · rw [chosen, if_neg (by simp), chosen_update (s' := s) (fun i hi => if_neg (by omega))]; omega
  · rw [chosen, if_neg (by simp), chosen_update (s' := s) (fun i hi => if_neg (by omega))]; omega
  · intro s hs
    rw [chosen] at hs ⊢
    have := chosen_nonneg (n := n) (fun i hi => hw i (by omega)) s
    by_cases e : s n = true
    · rw [if_pos e] at hs; omega
    · rw [if_neg e] at hs ⊢
      have := h3 s (by omega)
      omega

theorem _root_.Verif.Spec.IsBest.both {n : Nat} {ws vs : Nat → Int} {w V V' : Int} (h : IsBest n ws vs w V) (h' : IsBest n ws vs (w - ws n) V') :
    IsBest (n + 1) ws vs w (max V (V' + vs n)) := by
  obtain ⟨⟨s, h1, h2⟩, h3⟩ := h
  obtain ⟨⟨s', h1', h2'⟩, h3'⟩ := h'
  constructor
  · by_cases hc : V' + vs n ≤ V
    · refine ⟨fun i => if i = n then false else s i, ?_, ?_⟩
      · rw [chosen, if_neg (by simp), chosen_update (s' := s) (fun i hi => if_neg (by omega))]; omega
      · rw [chosen, if_neg (by simp), chosen_update (s' := s) (fun i hi => if_neg (by omega))]; omega
    · refine ⟨fun i => if i = n then true else s' i, ?_, ?_⟩
      · rw [chosen, if_pos (by simp), chosen_update (s' := s') (fun i hi => if_neg (by omega))]; omega
      · rw [chosen, if_pos (by simp), chosen_update (s' := s') (fun i hi => if_neg (by omega))]; omega
  · intro t ht
    rw [chosen] at ht ⊢
    by_cases e : t n = true
    · rw [if_pos e] at ht ⊢
      have := h3' t (by omega)
      omega
    · rw [if_neg e] at ht ⊢
      have := h3 t (by omega)
      omega

/-- Every stored value is right. -/
def CacheOk (n : Nat) (ws vs : Nat → Int) (cs : List Cache) : Prop :=
  ∀ c ∈ cs, c.range < n ∧ IsBest (c.range + 1) ws vs c.weight c.value

theorem lookup_mem : ∀ {cs : List Cache} {r : Nat} {w x : Int}, lookup cs r w = some x → ⟨r, w, x⟩ ∈ cs
  | [], _, _, _, h => by cases h
  | c :: cs, r, w, x, h => by
    rw [lookup] at h
    split at h
    · rename_i e
      cases h
      rw [← e.1, ← e.2]; simp
    · exact List.mem_cons_of_mem _ (lookup_mem h)

theorem bagValue_ok {n : Nat} {ws vs : Nat → Int} (hw : ∀ i, i < n → 0 ≤ ws i) : ∀ (r : Nat) (w : Int) (cs : List Cache), r ≤ n → 0 ≤ w →
    CacheOk n ws vs cs → ∃ V cs', bagValue n ws vs r w cs = some (V, cs') ∧ IsBest r ws vs w V ∧ CacheOk n ws vs cs'
  | 0, w, cs, _, h, hc => by
    rw [bagValue, if_pos h]
    exact ⟨0, cs, rfl, ⟨⟨fun _ => false, h, rfl⟩, fun s _ => Int.le_refl 0⟩, hc⟩
  | r + 1, w, cs, hr, h, hc => by
    rw [bagValue, if_pos h]
    cases hl : lookup cs r w with
    | some x => exact ⟨x, cs, rfl, (hc _ (lookup_mem hl)).2, hc⟩
    | none =>
      dsimp only
      obtain ⟨V, cs1, e1, b1, c1⟩ := bagValue_ok hw r w cs (by omega) h hc
      rw [e1, rd, if_pos (by omega)]
      simp only [Option.bind_some]
      by_cases hge : w ≥ ws r
      · rw [if_pos hge]
        obtain ⟨V', cs2, e2, b2, c2⟩ := bagValue_ok hw r (w - ws r) cs1 (by omega) (by omega) c1
        rw [e2, rd, if_pos (by omega)]
        simp only [Option.bind_some]
        refine ⟨_, _, rfl, b1.both b2, fun c hcm => ?_⟩
        rcases List.mem_append.1 hcm with hcm | hcm
        · exact c2 c hcm
        · rw [List.mem_singleton] at hcm
          subst hcm
          exact ⟨by dsimp only; omega, b1.both b2⟩
      · rw [if_neg hge]
        have hb := b1.without (fun i hi => hw i (by omega)) (by omega)
        refine ⟨_, _, rfl, hb, fun c hcm => ?_⟩
        rcases List.mem_append.1 hcm with hcm | hcm
        · exact c1 c hcm
        · rw [List.mem_singleton] at hcm
          subst hcm
          exact ⟨by dsimp only; omega, hb⟩

theorem foldlM_total {α β : Type} {f : β → α → Option β} {P : β → Prop} : ∀ (l : List α),
    (∀ b a, P b → a ∈ l → ∃ b', f b a = some b' ∧ P b') → ∀ b, P b → ∃ b', l.foldlM f b = some b' ∧ P b'
  | [], _, b, hb => ⟨b, rfl, hb⟩
  | a :: l, h, b, hb => by
    obtain ⟨b1, e1, p1⟩ := h b a hb (by simp)
    obtain ⟨b2, e2, p2⟩ := foldlM_total l (fun b x hb hx => h b x hb (List.mem_cons_of_mem _ hx)) b1 p1
    exact ⟨b2, by rw [List.foldlM_cons, e1]; exact e2, p2⟩

theorem bagFlags_total {n : Nat} {ws vs : Nat → Int} {cs : List Cache} (hc : CacheOk n ws vs cs) : ∀ (r : Nat) (V : Int) (fl : Nat → Bool),
    (∀ i, fl i = true → i < n) → ∃ fl', bagFlags n vs cs r V fl = some fl' ∧ ∀ i, fl' i = true → i < n
  | 0, _, fl, hf => ⟨fl, rfl, hf⟩
  | r + 1, V, fl, hf => by
    rw [bagFlags]
    refine foldlM_total (P := fun fl => ∀ i, fl i = true → i < n) cs (fun fl c hf hcm => ?_) fl hf
    split
    · rw [rd, if_pos (hc c hcm).1]
      simp only [Option.bind_some]
      split
      · refine bagFlags_total hc r _ _ (fun i hi => ?_)
        by_cases e : i = c.range
        · rw [e]; exact (hc c hcm).1
        · rw [if_neg e] at hi; exact hf i hi
      · exact ⟨_, rfl, hf⟩
    · exact ⟨_, rfl, hf⟩

end Verif.Dp
