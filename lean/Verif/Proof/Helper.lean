import Verif.Model.Helper
import Verif.Spec.Helper
import Verif.Proof.Sort
import Mathlib.Tactic.Ring
import Mathlib.Data.Nat.Choose.Basic

/-!
# Helpers
-/

namespace Verif.Helper

open Verif.Spec Verif.Sorting

variable {T : Type}

theorem wrv_lt {n i : Nat} {f : Nat → T} {x : T} (h : i < n) : wrv n f i x = some (fun y => if y = i then x else f y) := if_pos h

theorem rd_lt' {n i : Nat} {f : Nat → T} (h : i < n) : rd n f i = some (f i) := if_pos h

/-! ## Prefix sums -/

theorem integralLoop_ok [Add T] [Zero T] {m n : Nat} {src : Nat → T} (hm : n < m) : ∀ (k i : Nat) (res : Nat → T), i + k = n →
    (∀ x, x ≤ i → res x = prefixSum src x) →
    ∃ r, integralLoop m n src k i res = some r ∧ (∀ x, x ≤ n → r x = prefixSum src x) ∧ ∀ x, n < x → r x = res x
  | 0, i, res, e, h => ⟨res, rfl, by rw [← e]; exact h, fun _ _ => rfl⟩
  | k + 1, i, res, e, h => by
    rw [integralLoop, rd_lt' (by omega), rd_lt' (by omega)]
    simp only [Option.bind_some]
    rw [wrv_lt (by omega)]
    simp only [Option.bind_some]
    obtain ⟨r, er, h1, h2⟩ := integralLoop_ok hm k (i + 1) (fun y => if y = i + 1 then res i + src i else res y) (by omega) (by
      intro x hx
      by_cases he : x = i + 1
      · rw [if_pos he, he, prefixSum, h i (by omega)]
      · rw [if_neg he]; exact h x (by omega))
    exact ⟨r, er, h1, fun x hx => by rw [h2 x hx, if_neg (by omega)]⟩

/-! ## Multi-index -/

/-- The flat index by Horner's rule from the front. -/
def horner (sizes ix : Nat → Int) : Nat → Int
  | 0 => 0
  | k + 1 => horner sizes ix k * sizes k + ix k

/-- Number of elements of the first dimensions. -/
def vol (sizes : Nat → Int) : Nat → Int
  | 0 => 1
  | k + 1 => vol sizes k * sizes k

theorem flatLoop_ok {n : Nat} {ix sizes : Nat → Int} : ∀ (k : Nat) (res c : Int), k < n →
    flatLoop n ix sizes k res c = some (res + horner sizes ix k * (c * sizes k))
  | 0, res, c, _ => by rw [flatLoop, horner]; simp
  | k + 1, res, c, h => by
    rw [flatLoop, rd_lt' h, rd_lt' (by omega)]
    simp only [Option.bind_some]
    rw [flatLoop_ok k _ _ (by omega), horner]
    congr 1
    ring

theorem flatIndex_ok {n : Nat} {ix sizes : Nat → Int} (h : 0 < n) : flatIndex n ix sizes = some (horner sizes ix n) := by
  obtain ⟨m, rfl⟩ : ∃ m, n = m + 1 := ⟨n - 1, by omega⟩
  rw [flatIndex, if_neg (by omega), Nat.add_sub_cancel, rd_lt' (by omega)]
  simp only [Option.bind_some]
  rw [flatLoop_ok m _ _ (by omega), horner]
  congr 1
  ring

theorem vol_pos {sizes : Nat → Int} : ∀ n, (∀ i, i < n → 0 < sizes i) → 0 < vol sizes n
  | 0, _ => Int.one_pos
  | n + 1, h => by
    rw [vol]
    exact Int.mul_pos (vol_pos n (fun i hi => h i (by omega))) (h n (by omega))

theorem horner_range {sizes ix : Nat → Int} : ∀ n, InShape n sizes ix → 0 ≤ horner sizes ix n ∧ horner sizes ix n < vol sizes n
  | 0, _ => by simp [horner, vol]
  | n + 1, h => by
    obtain ⟨h1, h2⟩ := horner_range n (fun i hi => h i (by omega))
    obtain ⟨h3, h4⟩ := h n (by omega)
    rw [horner, vol]
    have hs : 0 < sizes n := by omega
    constructor
    · have := Int.mul_nonneg h1 (Int.le_of_lt hs)
      omega
    · have : (horner sizes ix n + 1) * sizes n ≤ vol sizes n * sizes n := Int.mul_le_mul_of_nonneg_right (by omega) (Int.le_of_lt hs)
      rw [Int.add_mul, Int.one_mul] at this
      omega

theorem horner_inj {sizes ix iy : Nat → Int} : ∀ n, InShape n sizes ix → InShape n sizes iy → horner sizes ix n = horner sizes iy n →
    ∀ i, i < n → ix i = iy i
  | 0, _, _, _, i, hi => by omega
  | n + 1, h, h', e, i, hi => by
    rw [horner, horner] at e
    obtain ⟨h3, h4⟩ := h n (by omega)
    obtain ⟨h5, h6⟩ := h' n (by omega)
    have m1 : (horner sizes ix n * sizes n + ix n) % sizes n = ix n := by
      rw [Int.add_comm, Int.add_mul_emod_self_right, Int.emod_eq_of_lt h3 h4]
    have m2 : (horner sizes iy n * sizes n + iy n) % sizes n = iy n := by
      rw [Int.add_comm, Int.add_mul_emod_self_right, Int.emod_eq_of_lt h5 h6]
    have e1 : ix n = iy n := by rw [← m1, ← m2, e]
    have e2 : horner sizes ix n = horner sizes iy n := by
      have : horner sizes ix n * sizes n = horner sizes iy n * sizes n := by omega
      exact Int.eq_of_mul_eq_mul_right (by omega) this
    by_cases hn : i = n
    · rw [hn]; exact e1
    · exact horner_inj n (fun i hi => h i (by omega)) (fun i hi => h' i (by omega)) e2 i (by omega)

theorem horner_surj {sizes : Nat → Int} : ∀ n, (∀ i, i < n → 0 < sizes i) → ∀ q, 0 ≤ q → q < vol sizes n →
    ∃ ix, InShape n sizes ix ∧ horner sizes ix n = q
  | 0, _, q, h1, h2 => ⟨fun _ => 0, fun i hi => by omega, by rw [vol] at h2; rw [horner]; omega⟩
  | n + 1, h, q, h1, h2 => by
    have hs := h n (by omega)
    rw [vol] at h2
    obtain ⟨ix, hi, e⟩ := horner_surj n (fun i hi => h i (by omega)) (q / sizes n) (Int.ediv_nonneg h1 (Int.le_of_lt hs))
      (Int.ediv_lt_of_lt_mul hs h2)
    have hcongr : ∀ k, k ≤ n → horner sizes (fun i => if i = n then q % sizes n else ix i) k = horner sizes ix k := by
      intro k
      induction k with
      | zero => intro _; rfl
      | succ k ih => intro hk; rw [horner, horner, ih (by omega), if_neg (by omega)]
    refine ⟨fun i => if i = n then q % sizes n else ix i, ?_, ?_⟩
    · intro i hin
      dsimp only
      split
      · rename_i e1
        rw [e1]
        exact ⟨Int.emod_nonneg _ (by omega), Int.emod_lt_of_pos _ hs⟩
      · exact hi i (by omega)
    · rw [horner, hcongr n (Nat.le_refl n), if_pos rfl, e]
      rw [Int.mul_comm]
      exact Int.mul_ediv_add_emod q (sizes n)

theorem dimLoop_ok {n : Nat} {sizes : Nat → Int} : ∀ (k i : Nat) (d : Int), i + k ≤ n → ∃ d', dimLoop n sizes k i d = some d'
  | 0, _, d, _ => ⟨d, rfl⟩
  | k + 1, i, d, h => by
    rw [dimLoop, rd_lt' (by omega)]
    exact dimLoop_ok k (i + 1) _ (by omega)

theorem multiLoop_none {n : Nat} {sizes : Nat → Int} : ∀ (k i : Nat) (index d : Int) (ix : Nat → Int), 0 < k → i + k = n →
    multiLoop n n sizes k i index d ix = none
  | 0, _, _, _, _, h, _ => by omega
  | k + 1, i, index, d, ix, _, e => by
    rw [multiLoop]
    split
    · rfl
    · by_cases hk : k = 0
      · subst hk
        rw [rd, if_neg (by omega)]; rfl
      · rw [rd_lt' (by omega)]
        simp only [Option.bind_some]
        split
        · rfl
        · rw [wrv_lt (by omega)]
          exact multiLoop_none k (i + 1) _ _ _ (by omega) (by omega)

/-! ## Bytes and bits -/

theorem reverse_bytes (v : Int) :
    -2 ^ 31 ≤ reverseI32 v ∧ reverseI32 v < 2 ^ 31 ∧ reverseI32 v % 256 = v / 2 ^ 24 % 256 ∧
      reverseI32 v / 2 ^ 8 % 256 = v / 2 ^ 16 % 256 ∧ reverseI32 v / 2 ^ 16 % 256 = v / 2 ^ 8 % 256 ∧
      reverseI32 v / 2 ^ 24 % 256 = v % 256 := by
  unfold reverseI32 toI32
  norm_num only
  generalize ha : v % 256 = a
  generalize hb : v / 256 % 256 = b
  generalize hc : v / 65536 % 256 = c
  generalize hd : v / 16777216 % 256 = d
  have a1 : 0 ≤ a ∧ a < 256 := by omega
  have b1 : 0 ≤ b ∧ b < 256 := by omega
  have c1 : 0 ≤ c ∧ c < 256 := by omega
  have d1 : 0 ≤ d ∧ d < 256 := by omega
  clear ha hb hc hd
  refine ⟨?_, ?_, ?_, ?_, ?_, ?_⟩ <;> omega

theorem value_of_bytes {v : Int} (h1 : -2 ^ 31 ≤ v) (h2 : v < 2 ^ 31) :
    v = toI32 (v / 2 ^ 24 % 256 * 2 ^ 24) + v / 2 ^ 16 % 256 * 2 ^ 16 + v / 2 ^ 8 % 256 * 2 ^ 8 + v % 256 := by
  unfold toI32
  norm_num only at h1 h2 ⊢
  omega

theorem reverse_twice {v : Int} (h1 : -2 ^ 31 ≤ v) (h2 : v < 2 ^ 31) : reverseI32 (reverseI32 v) = v := by
  obtain ⟨_, _, e1, e2, e3, e4⟩ := reverse_bytes v
  rw [reverseI32]
  rw [e1, e2, e3, e4]
  exact (value_of_bytes h1 h2).symm

theorem onesLoop_ok : ∀ (k : Nat) (n : Int) (c : Nat), onesLoop k n c = c + oneBits n k
  | 0, n, c => rfl
  | k + 1, n, c => by
    rw [onesLoop, onesLoop_ok k]
    have hsplit : oneBits n (k + 1) = (if n % 2 ≠ 0 then 1 else 0) + oneBits (n / 2) k := by
      unfold oneBits
      rw [List.range_succ_eq_map, List.filter_cons, List.filter_map, ]
      have hf : (fun i => decide (n / 2 ^ i % 2 = 1)) ∘ Nat.succ = fun i => decide (n / 2 / 2 ^ i % 2 = 1) := by
        funext i
        simp only [Function.comp]
        rw [Int.ediv_ediv_of_nonneg (by decide), Nat.succ_eq_add_one, Int.pow_succ, Int.mul_comm]
      rw [hf]
      have : n % 2 = 0 ∨ n % 2 = 1 := by omega
      rcases this with h | h
      · rw [if_neg (by simp [h])]; simp [h]
      · rw [if_pos (by simp [h])]; simp [h]; omega
    rw [hsplit]
    split <;> omega

/-! ## Flipping -/

theorem flipLoop_ok {n : Nat} : ∀ (k i : Nat) (f : Nat → T), i + k ≤ n / 2 →
    ∃ g σ, flipLoop n k i f = some g ∧ Within 0 (n - 1) σ ∧ ∀ x, g x = f (σ x)
  | 0, _, f, _ => ⟨f, Equiv.refl _, rfl, .refl _ _, fun _ => rfl⟩
  | k + 1, i, f, h => by
    rw [flipLoop, swp_lt (by omega) (by omega)]
    simp only [Option.bind_some]
    obtain ⟨g, σ, e, hw, hg⟩ := flipLoop_ok (n := n) k (i + 1) (fun x => f (Equiv.swap i (i + n - i - 1) x)) (by omega)
    exact ⟨g, σ.trans (Equiv.swap i (i + n - i - 1)), e, hw.trans (.swap (by omega) (by omega) (by omega) (by omega)), fun x => by rw [hg]; rfl⟩

/-! ## Copying from pointers -/

theorem instLoop_ok {n m : Nat} {src : Nat → Nat} {mem : Nat → T} (h : n ≤ m) : ∀ (k i : Nat) (res : Nat → T), i + k = n →
    ∃ r, instLoop n m src mem k i res = some r ∧ ∀ x, r x = if i ≤ x ∧ x < n then mem (src x) else res x
  | 0, i, res, e => ⟨res, rfl, fun x => by rw [if_neg (by omega)]⟩
  | k + 1, i, res, e => by
    rw [instLoop, rd_lt' (by omega)]
    simp only [Option.bind_some]
    rw [wrv_lt (by omega)]
    simp only [Option.bind_some]
    obtain ⟨r, er, h1⟩ := instLoop_ok (src := src) (mem := mem) h k (i + 1) (fun y => if y = i then mem (src i) else res y) (by omega)
    refine ⟨r, er, fun x => ?_⟩
    rw [h1]
    by_cases hx : i + 1 ≤ x ∧ x < n
    · rw [if_pos hx, if_pos (by omega)]
    · rw [if_neg hx]
      by_cases hi : x = i
      · rw [if_pos hi, if_pos (by omega), hi]
      · rw [if_neg hi, if_neg (by omega)]

/-! ## Extreme value -/

theorem extremeLoop_ok [LinearOrder T] {n : Nat} {mx : Bool} {f : Nat → T} : ∀ (k i ix : Nat), i + k = n → ix < i →
    (∀ j, j < i → Dir mx (f j) (f ix)) → (∀ j, j < ix → ¬ Dir mx (f ix) (f j)) →
    ∃ r, extremeLoop n mx f k i ix = some r ∧ r < n ∧ (∀ j, j < n → Dir mx (f j) (f r)) ∧ ∀ j, j < r → ¬ Dir mx (f r) (f j)
  | 0, i, ix, e, h, h1, h2 => ⟨ix, rfl, by omega, fun j hj => h1 j (by omega), h2⟩
  | k + 1, i, ix, e, h, h1, h2 => by
    rw [extremeLoop, rd_lt' (by omega), rd_lt' (by omega)]
    simp only [Option.bind_some]
    have hcond : (if mx then decide (f ix < f i) else decide (f i < f ix)) = true ↔ ¬ Dir mx (f i) (f ix) := by
      cases mx <;> simp [Dir]
    by_cases hc : (if mx then decide (f ix < f i) else decide (f i < f ix)) = true
    · rw [if_pos hc]
      have hn := hcond.1 hc
      refine extremeLoop_ok k (i + 1) i (by omega) (by omega) (fun j hj => ?_) (fun j hj hd => ?_)
      · by_cases hj' : j = i
        · rw [hj']; exact .refl _ _
        · exact (h1 j (by omega)).trans (Dir.total hn)
      · exact hn (hd.trans (h1 j hj))
    · rw [if_neg hc]
      refine extremeLoop_ok k (i + 1) ix (by omega) (by omega) (fun j hj => ?_) h2
      by_cases hj' : j = i
      · rw [hj']
        by_contra hn
        exact hc (hcond.2 hn)
      · exact h1 j (by omega)

/-! ## Factorials -/

theorem fact_eq : ∀ n, fact n = n.factorial
  | 0 => rfl
  | n + 1 => by rw [fact, fact_eq n, Nat.factorial_succ]

theorem binom_eq : ∀ n k, binom n k = n.choose k
  | _, 0 => by rw [binom, Nat.choose_zero_right]
  | 0, k + 1 => by rw [binom, Nat.choose_zero_succ]
  | n + 1, k + 1 => by rw [binom, binom_eq n k, binom_eq n (k + 1), Nat.choose_succ_succ]

theorem fact_mono {a b : Nat} (h : a ≤ b) : fact a ≤ fact b := by
  rw [fact_eq, fact_eq]; exact Nat.factorial_le h

theorem factLoop_ok : ∀ (k i : Nat), fact (i + k) < 2 ^ 31 → factLoop k (i + 1) (fact i) = some (fact (i + k) : Int)
  | 0, i, _ => rfl
  | k + 1, i, h => by
    have e : (fact i : Int) * ((i + 1 : Nat) : Int) = (fact (i + 1) : Int) := by
      rw [fact]; push_cast; ring
    have hle := fact_mono (show i + 1 ≤ i + (k + 1) by omega)
    rw [factLoop, e, i32, if_pos ⟨by omega, by omega⟩]
    simp only [Option.bind_some]
    have := factLoop_ok k (i + 1) (by rw [show i + 1 + k = i + (k + 1) by omega]; exact h)
    rw [this, show i + 1 + k = i + (k + 1) by omega]

theorem factLoop_none : ∀ (k i : Nat), fact i < 2 ^ 31 → 2 ^ 31 ≤ fact (i + k) → factLoop k (i + 1) (fact i) = none
  | 0, i, h, h' => by rw [Nat.add_zero] at h'; omega
  | k + 1, i, h, h' => by
    have e : (fact i : Int) * ((i + 1 : Nat) : Int) = (fact (i + 1) : Int) := by
      rw [fact]; push_cast; ring
    rw [factLoop, e, i32]
    by_cases hb : fact (i + 1) < 2 ^ 31
    · rw [if_pos ⟨by omega, by omega⟩]
      simp only [Option.bind_some]
      exact factLoop_none k (i + 1) hb (by rw [show i + 1 + k = i + (k + 1) by omega]; exact h')
    · rw [if_neg (by omega)]; rfl

theorem fact_12 : fact 12 < 2 ^ 31 := by decide

theorem factorial_ok {n : Nat} (h : n ≤ 12) : factorial n = some (fact n : Int) := by
  have := factLoop_ok n 0 (by rw [Nat.zero_add]; exact Nat.lt_of_le_of_lt (fact_mono h) fact_12)
  rw [show 0 + n = n by omega] at this
  exact this

theorem factorial_none {n : Nat} (h : 13 ≤ n) : factorial n = none := by
  have h13 : 2 ^ 31 ≤ fact 13 := by decide
  refine factLoop_none n 0 (by decide) ?_
  rw [Nat.zero_add]
  exact Nat.le_trans h13 (fact_mono h)

theorem combination_core {b q : Nat} (hq : 0 < q) (h : q < 2 ^ 31) :
    ((i32 (q : Int)).bind fun d => if d = 0 then none else some (((b : Int) * (q : Int)).tdiv d)) = some (b : Int) := by
  rw [i32, if_pos ⟨by omega, by omega⟩]
  simp only [Option.bind_some]
  rw [if_neg (by omega), Int.mul_tdiv_cancel _ (by omega)]

theorem fact_pos (n : Nat) : 0 < fact n := by rw [fact_eq]; exact Nat.factorial_pos _

theorem fact_split {n k : Nat} (hk : k ≤ n) : binom n k * (fact k * fact (n - k)) = fact n := by
  rw [binom_eq, fact_eq, fact_eq, fact_eq, ← Nat.mul_assoc]
  exact Nat.choose_mul_factorial_mul_factorial hk

theorem fact_split_le {n k : Nat} (hk : k ≤ n) : fact k * fact (n - k) ≤ fact n := by
  have hs := fact_split hk
  rw [← hs]
  exact Nat.le_mul_of_pos_left _ (by rw [binom_eq]; exact Nat.choose_pos hk)

theorem fact_split_lt {n k : Nat} (h : n ≤ 12) (hk : k ≤ n) :  fact k * fact (n - k) < 2 ^ 31 := Nat.lt_of_le_of_lt (fact_split_le hk) (Nat.lt_of_le_of_lt (fact_mono h) fact_12)

theorem combination_ok {n k : Nat} (h : n ≤ 12) (hk : k ≤ n) : combination n k = some (binom n k : Int) := by
  have hs := fact_split hk
  have hc := combination_core (b := binom n k) (Nat.mul_pos (fact_pos k) (fact_pos (n - k))) (fact_split_lt h hk)
  rw [combination, if_pos hk, factorial_ok h, factorial_ok (Nat.le_trans hk h), factorial_ok (Nat.le_trans (Nat.sub_le n k) h)]
  rw [Option.bind_some, Option.bind_some, Option.bind_some]
  rw [← Int.natCast_mul, ← hs, Int.natCast_mul (binom n k)]
  exact hc

/-! ## Odd and even -/

/-- 0 for what comes to the front, 1 for what comes to the back. -/
def key (oddFront : Bool) (a : Int) : Int := if oddFront then 1 - a % 2 else a % 2

theorem key_01 (o : Bool) (a : Int) : key o a = 0 ∨ key o a = 1 := by
  unfold key; split <;> omega

theorem wrongPair_iff {o : Bool} {a b : Int} (ha : 0 ≤ a) (hb : 0 ≤ b) : wrongPair o a b = true ↔ key o b < key o a := by
  unfold wrongPair key
  rw [Int.tmod_eq_emod_of_nonneg ha, Int.tmod_eq_emod_of_nonneg hb]
  cases o <;> simp <;> omega

theorem filter_swap {n j : Nat} (h : j + 1 < n) {f : Nat → Int} {p : Int → Bool} (hp : p (f j) = true → p (f (j + 1)) = false) :
    ((List.range n).map (fun x => f (Equiv.swap j (j + 1) x))).filter p = ((List.range n).map f).filter p := by
  obtain ⟨r, rfl⟩ : ∃ r, n = j + (2 + r) := ⟨n - j - 2, by omega⟩
  have hr : List.range (j + (2 + r)) = List.range j ++ (j :: (j + 1) :: (List.range r).map (fun x => j + (2 + x))) := by
    rw [List.range_add, List.range_add (n := 2), List.map_append, List.map_map]
    rfl
  rw [hr]
  simp only [List.map_append, List.map_cons, List.map_map, List.filter_append, List.filter_cons, Equiv.swap_apply_left, Equiv.swap_apply_right]
  have h1 : (List.range j).map (fun x => f (Equiv.swap j (j + 1) x)) = (List.range j).map f := by
    refine List.map_congr_left (fun x hx => ?_)
    have := List.mem_range.1 hx
    rw [Equiv.swap_apply_of_ne_of_ne (by omega) (by omega)]
  have h2 : (List.range r).map ((fun x => f (Equiv.swap j (j + 1) x)) ∘ fun x => j + (2 + x)) = (List.range r).map (f ∘ fun x => j + (2 + x)) := by
    refine List.map_congr_left (fun x hx => ?_)
    simp only [Function.comp]
    rw [Equiv.swap_apply_of_ne_of_ne (by omega) (by omega)]
  rw [h1, h2]
  congr 1
  by_cases hj : p (f j) = true
  · have := hp hj
    simp [hj, this]
  · by_cases hj2 : p (f (j + 1)) = true
    · simp [hj, hj2]
    · simp [hj, hj2]

/-- The elements with key `c`, in order. -/
def kind (n : Nat) (o : Bool) (c : Int) (f : Nat → Int) : List Int := ((List.range n).map f).filter (fun a => decide (key o a = c))

theorem oePass_ok {n : Nat} {o : Bool} : ∀ (k j : Nat) (f : Nat → Int) (sw : Bool), j + k < n → (∀ x, x < n → 0 ≤ f x) →
    ∃ g sw' σ, oePass n o k j f sw = some (g, sw') ∧ Within j (j + k) σ ∧ (∀ x, g x = f (σ x)) ∧
      (∀ x, j ≤ x → x ≤ j + k → key o (g x) ≤ key o (g (j + k))) ∧ (∀ c, kind n o c g = kind n o c f) ∧
      (sw' = false → sw = false ∧ g = f ∧ ∀ x, j ≤ x → x < j + k → key o (f x) ≤ key o (f (x + 1)))
  | 0, j, f, sw, h, hf => by
    refine ⟨f, sw, Equiv.refl _, rfl, .refl _ _, fun _ => rfl, fun x h1 h2 => ?_, fun _ => rfl, fun h => ⟨h, rfl, fun x h1 h2 => by omega⟩⟩
    rw [show x = j by omega]; exact Int.le_refl _
  | k + 1, j, f, sw, h, hf => by
    rw [oePass, rd_lt' (by omega), rd_lt' (by omega)]
    simp only [Option.bind_some]
    have hmax : ∀ (g1 g : Nat → Int) (σ : Equiv.Perm Nat), Within (j + 1) (j + 1 + k) σ → (∀ x, g x = g1 (σ x)) → key o (g1 j) ≤ key o (g1 (j + 1)) →
        (∀ x, j + 1 ≤ x → x ≤ j + 1 + k → key o (g x) ≤ key o (g (j + 1 + k))) →
        ∀ x, j ≤ x → x ≤ j + (k + 1) → key o (g x) ≤ key o (g (j + (k + 1))) := by
      intro g1 g σ hw hg hk hm x h1 h2
      rw [show j + (k + 1) = j + 1 + k by omega]
      by_cases hx : x = j
      · subst hx
        rw [hg x, hw x (by omega)]
        obtain ⟨y, hy⟩ := σ.surjective (x + 1)
        have hy1 : x + 1 ≤ y ∧ y ≤ x + 1 + k := by
          by_contra hc
          have := hw y (by omega)
          omega
        have h3 := hm y hy1.1 hy1.2
        rw [hg y, hy] at h3
        omega
      · exact hm x (by omega) (by omega)
    by_cases hw : wrongPair o (f j) (f (j + 1)) = true
    · rw [if_pos hw, swp_lt (by omega) (by omega)]
      simp only [Option.bind_some]
      have hk := (wrongPair_iff (hf j (by omega)) (hf (j + 1) (by omega))).1 hw
      have hwithin : Within j (j + 1) (Equiv.swap j (j + 1)) := .swap (by omega) (by omega) (by omega) (by omega)
      obtain ⟨g, sw', σ, e, hs, hg, hm, hkind, hsw⟩ := oePass_ok (n := n) (o := o) k (j + 1) (fun x => f (Equiv.swap j (j + 1) x)) true
        (by omega) (fun x hx => by
          refine hf _ ?_
          by_cases h1 : x ≤ j + 1 ∧ j ≤ x
          · have := (hwithin.mem h1.2 h1.1).2; omega
          · rw [hwithin x (by omega)]; exact hx)
      refine ⟨g, sw', σ.trans (Equiv.swap j (j + 1)), e, (hs.mono (by omega) (by omega)).trans (hwithin.mono (by omega) (by omega)), fun x => by rw [hg]; rfl, ?_, ?_, ?_⟩
      · refine hmax (fun x => f (Equiv.swap j (j + 1) x)) g σ hs hg ?_ hm
        rw [Equiv.swap_apply_left, Equiv.swap_apply_right]
        exact Int.le_of_lt hk
      · intro c
        rw [hkind c]
        refine filter_swap (by omega) (fun h1 => ?_)
        have := of_decide_eq_true h1
        exact decide_eq_false (by omega)
      · intro h
        exact absurd (hsw h).1 (by decide)
    · rw [if_neg hw]
      have hk : ¬ key o (f (j + 1)) < key o (f j) := fun h => hw ((wrongPair_iff (hf j (by omega)) (hf (j + 1) (by omega))).2 h)
      obtain ⟨g, sw', σ, e, hs, hg, hm, hkind, hsw⟩ := oePass_ok (n := n) (o := o) k (j + 1) f sw (by omega) hf
      refine ⟨g, sw', σ, e, hs.mono (by omega) (by omega), hg, hmax f g σ hs hg (by omega) hm, hkind, fun h => ?_⟩
      obtain ⟨h1, h2, h3⟩ := hsw h
      refine ⟨h1, h2, fun x hx1 hx2 => ?_⟩
      by_cases hx : x = j
      · rw [hx]; omega
      · exact h3 x (by omega) (by omega)

/-- The keys from `a` to `n - 1` are in place. -/
def KeyPlaced (o : Bool) (a n : Nat) (f : Nat → Int) : Prop := ∀ x y, a ≤ y → y < n → x ≤ y → key o (f x) ≤ key o (f y)

theorem oeLoop_ok {n : Nat} {o : Bool} : ∀ (k i : Nat) (f : Nat → Int), i + k = n - 1 → (∀ x, x < n → 0 ≤ f x) → KeyPlaced o (n - i) n f →
    ∃ g, oeLoop n o k i f = some g ∧ KeyPlaced o 1 n g ∧ ∀ c, kind n o c g = kind n o c f
  | 0, i, f, e, hf, h => ⟨f, rfl, fun x y h1 h2 h3 => h x y (by omega) h2 h3, fun _ => rfl⟩
  | k + 1, i, f, e, hf, h => by
    obtain ⟨g, sw, σ, e1, hs, hg, hm, hkind, hsw⟩ := oePass_ok (n := n) (o := o) (n - 1 - i) 0 f false (by omega) hf
    rw [oeLoop, e1]
    simp only [Option.bind_some]
    have hsn : ∀ x y, x ≤ y → n - (i + 1) ≤ y → σ x ≤ y := by
      intro x y hxy hy
      by_cases hx : x ≤ 0 + (n - 1 - i)
      · have := (hs.mem (i := x) (by omega) hx).2; omega
      · rw [hs x (by omega)]; exact hxy
    by_cases hc : sw = true
    · rw [if_pos hc]
      obtain ⟨g', e2, h1, h2⟩ := oeLoop_ok (n := n) (o := o) k (i + 1) g (by omega)
        (fun x hx => by rw [hg]; exact hf _ (by have := hsn x (n - 1) (by omega) (by omega); omega)) (by
        intro x y hy hy' hxy
        by_cases hy2 : y = 0 + (n - 1 - i)
        · rw [hy2]; exact hm x (by omega) (by omega)
        · rw [hg y, hs y (by omega), hg x]
          exact h _ _ (by omega) hy' (hsn x y hxy (by omega)))
      exact ⟨g', e2, h1, fun c => by rw [h2, hkind]⟩
    · rw [if_neg hc]
      obtain ⟨_, h2, h3⟩ := hsw (Bool.eq_false_iff.2 hc)
      refine ⟨g, rfl, ?_, hkind⟩
      rw [h2]
      have hadj : ∀ x, x + 1 < n → key o (f x) ≤ key o (f (x + 1)) := by
        intro x hx
        by_cases hx2 : x < 0 + (n - 1 - i)
        · exact h3 x (by omega) hx2
        · exact h x (x + 1) (by omega) hx (by omega)
      have hall : ∀ d x, x + d < n → key o (f x) ≤ key o (f (x + d)) := by
        intro d
        induction d with
        | zero => intro x _; exact Int.le_refl _
        | succ d ih =>
          intro x hx
          have h1 := ih x (by omega)
          have h2 := hadj (x + d) (by omega)
          rw [show x + (d + 1) = x + d + 1 by omega]
          omega
      intro x y _ hy hxy
      have := hall (y - x) x (by omega)
      rw [show x + (y - x) = y by omega] at this
      exact this

theorem split_of_placed {o : Bool} {f : Nat → Int} : ∀ n, KeyPlaced o 1 n f → (List.range n).map f = kind n o 0 f ++ kind n o 1 f
  | 0, _ => rfl
  | n + 1, h => by
    have ih := split_of_placed n (fun x y h1 h2 h3 => h x y h1 (by omega) h3)
    have e : ∀ c, kind (n + 1) o c f = kind n o c f ++ if key o (f n) = c then [f n] else [] := by
      intro c
      unfold kind
      rw [List.range_succ, List.map_append, List.filter_append]
      congr 1
      by_cases hc : key o (f n) = c <;> simp [hc]
    rw [e, e, List.range_succ, List.map_append, ih]
    rcases key_01 o (f n) with hk | hk
    · have h1 : kind n o 1 f = [] := by
        unfold kind
        rw [List.filter_eq_nil_iff]
        intro a ha hd
        obtain ⟨x, hx, rfl⟩ := List.mem_map.1 ha
        have hx' := List.mem_range.1 hx
        have := h x n (by omega) (by omega) (by omega)
        have := of_decide_eq_true hd
        omega
      rw [h1, hk]
      simp
    · rw [hk]
      simp

end Verif.Helper
