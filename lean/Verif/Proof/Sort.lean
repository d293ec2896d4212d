import Verif.Model.Sort
import Verif.Spec.Sorted
import Mathlib.Logic.Equiv.Basic

/-!
# The bubble sorts
-/

namespace Verif.Sorting

open Verif.Spec

variable {T : Type} [LinearOrder T]

theorem out_iff {inc : Bool} {a b : T} : out inc a b = true ↔ ¬ Dir inc a b := by
  cases inc <;> simp [out, Dir]

theorem _root_.Verif.Spec.Dir.refl (inc : Bool) (a : T) : Dir inc a a := by cases inc <;> simp [Dir]

theorem _root_.Verif.Spec.Dir.trans {inc : Bool} {a b c : T} (h : Dir inc a b) (h' : Dir inc b c) : Dir inc a c := by
  cases inc
  · simp only [Dir, Bool.false_eq_true, if_false] at *; exact le_trans h' h
  · simp only [Dir, if_true] at *; exact le_trans h h'

theorem _root_.Verif.Spec.Dir.total {inc : Bool} {a b : T} (h : ¬ Dir inc a b) : Dir inc b a := by
  cases inc
  · simp only [Dir, Bool.false_eq_true, if_false] at *; exact le_of_lt (not_le.1 h)
  · simp only [Dir, if_true] at *; exact le_of_lt (not_le.1 h)

theorem rd_lt {n i : Nat} {f : Nat → T} (h : i < n) : rd n f i = some (f i) := if_pos h

theorem swp_lt {X : Type} {n i j : Nat} {f : Nat → X} (hi : i < n) (hj : j < n) :
    swp n f i j = some (fun x => f (Equiv.swap i j x)) := by
  rw [swp, if_pos ⟨hi, hj⟩]
  congr 1
  funext x
  rw [Equiv.swap_apply_def]
  split
  · rfl
  · split <;> rfl

/-- A permutation that moves only indexes from `a` to `b`. -/
def Within (a b : Nat) (σ : Equiv.Perm Nat) : Prop := ∀ i, (i < a ∨ b < i) → σ i = i

theorem Within.mem {a b : Nat} {σ : Equiv.Perm Nat} (h : Within a b σ) {i : Nat} (h1 : a ≤ i) (h2 : i ≤ b) :
    a ≤ σ i ∧ σ i ≤ b := by
  by_contra hc
  have : σ i < a ∨ b < σ i := by omega
  have e := σ.injective (h _ this)
  omega

theorem Within.refl (a b : Nat) : Within a b (Equiv.refl Nat) := fun _ _ => rfl

theorem Within.swap {a b i j : Nat} (hi : a ≤ i) (hi' : i ≤ b) (hj : a ≤ j) (hj' : j ≤ b) :
    Within a b (Equiv.swap i j) := fun x h => Equiv.swap_apply_of_ne_of_ne (by omega) (by omega)

theorem Within.trans {a b : Nat} {σ τ : Equiv.Perm Nat} (h : Within a b σ) (h' : Within a b τ) : Within a b (σ.trans τ) :=
  fun i hi => by rw [Equiv.trans_apply, h i hi, h' i hi]

theorem Within.mono {a b a' b' : Nat} {σ : Equiv.Perm Nat} (h : Within a b σ) (ha : a' ≤ a) (hb : b ≤ b') : Within a' b' σ :=
  fun i hi => h i (by omega)

/-- One pass of the inner loop over `j, …, j + k - 1`. -/
def passes (inc : Bool) : Nat → Nat → (Nat → T) → (Nat → T)
  | 0, _, f => f
  | k + 1, j, f => passes inc k (j + 1) (if out inc (f j) (f (j + 1)) then fun x => f (Equiv.swap j (j + 1) x) else f)

theorem bubblePass_eq {n : Nat} {inc : Bool} {bound : Nat} : ∀ (k fuel j : Nat) (f : Nat → T), j + k = bound → k < fuel →
    bound < n → bubblePass n inc bound fuel j f = some (passes inc k j f)
  | 0, fuel + 1, j, f, e, _, _ => by
    rw [bubblePass, if_neg (by omega), passes]
  | k + 1, fuel + 1, j, f, e, h, hn => by
    rw [bubblePass, if_pos (by omega), rd_lt (by omega), rd_lt (by omega), passes]
    simp only [Option.bind_some]
    split
    · rw [swp_lt (by omega) (by omega)]
      exact bubblePass_eq k fuel (j + 1) _ (by omega) (by omega) hn
    · exact bubblePass_eq k fuel (j + 1) _ (by omega) (by omega) hn

theorem passes_spec {inc : Bool} : ∀ (k j : Nat) (f : Nat → T), ∃ σ, Within j (j + k) σ ∧
    (∀ x, passes inc k j f x = f (σ x)) ∧ ∀ x, j ≤ x → x ≤ j + k → Dir inc (passes inc k j f x) (passes inc k j f (j + k))
  | 0, j, f => ⟨Equiv.refl _, .refl _ _, fun _ => rfl, fun x h1 h2 => by
      have : x = j := by omega
      subst this; exact .refl _ _⟩
  | k + 1, j, f => by
    rw [passes]
    generalize hg : (if out inc (f j) (f (j + 1)) then fun x => f (Equiv.swap j (j + 1) x) else f) = g
    have hg1 : ∃ τ, Within j (j + 1) τ ∧ (∀ x, g x = f (τ x)) ∧ Dir inc (g j) (g (j + 1)) := by
      rw [← hg]
      by_cases h : out inc (f j) (f (j + 1)) = true
      · rw [if_pos h]
        refine ⟨Equiv.swap j (j + 1), .swap (by omega) (by omega) (by omega) (by omega), fun _ => rfl, ?_⟩
        simp only [Equiv.swap_apply_left, Equiv.swap_apply_right]
        exact Dir.total (out_iff.1 h)
      · rw [if_neg h]
        refine ⟨Equiv.refl _, .refl _ _, fun _ => rfl, ?_⟩
        by_contra hc
        exact h (out_iff.2 hc)
    obtain ⟨τ, ht, htg, hd⟩ := hg1
    obtain ⟨σ, hs, hsg, hm⟩ := passes_spec k (j + 1) g
    refine ⟨σ.trans τ, (hs.mono (by omega) (by omega)).trans (ht.mono (by omega) (by omega)), fun x => ?_, ?_⟩
    · rw [hsg, htg]; rfl
    · intro x h1 h2
      have e : j + (k + 1) = j + 1 + k := by omega
      rw [e]
      by_cases hx : x = j
      · subst hx
        have : passes inc k (x + 1) g x = g x := by rw [hsg, hs x (by omega)]
        rw [this]
        obtain ⟨y, hy⟩ := σ.surjective (x + 1)
        have hy1 : x + 1 ≤ y ∧ y ≤ x + 1 + k := by
          by_contra hc
          have := hs y (by omega)
          omega
        have h3 := hm y hy1.1 hy1.2
        rw [hsg y, hy] at h3
        exact hd.trans h3
      · exact hm x (by omega) (by omega)

theorem passes_add {inc : Bool} : ∀ (a b j : Nat) (f : Nat → T), passes inc (a + b) j f = passes inc b (j + a) (passes inc a j f)
  | 0, b, j, f => by rw [Nat.zero_add]; rfl
  | a + 1, b, j, f => by
    rw [show a + 1 + b = a + b + 1 by omega, passes, passes, passes_add a b, show j + 1 + a = j + (a + 1) by omega]

theorem passes_noop {inc : Bool} : ∀ (k j : Nat) (f : Nat → T), (∀ x, j ≤ x → x < j + k → Dir inc (f x) (f (x + 1))) →
    passes inc k j f = f
  | 0, _, _, _ => rfl
  | k + 1, j, f, h => by
    rw [passes, if_neg (fun h' => out_iff.1 h' (h j (by omega) (by omega)))]
    exact passes_noop k (j + 1) f (fun x h1 h2 => h x (by omega) (by omega))

/-- The elements from `a` to `b - 1` are where they belong: none before them has to come after them. -/
def Placed (inc : Bool) (a b : Nat) (f : Nat → T) : Prop := ∀ x y, a ≤ y → y < b → x ≤ y → Dir inc (f x) (f y)

theorem bubbleLoop_ok {n : Nat} {inc : Bool} : ∀ (k i : Nat) (f : Nat → T), i + k = n - 1 → Placed inc (n - i) n f →
    ∃ g, bubbleLoop n inc k i f = some g ∧ Placed inc (n - (i + k)) n g ∧ ∃ σ, Within 0 (n - 1) σ ∧ ∀ x, g x = f (σ x)
  | 0, i, f, _, h => ⟨f, rfl, h, Equiv.refl _, .refl _ _, fun _ => rfl⟩
  | k + 1, i, f, e, h => by
    rw [bubbleLoop, bubblePass_eq (n := n) (bound := n - i - 1) (n - i - 1) (n + 1) 0 f (by omega) (by omega) (by omega)]
    obtain ⟨σ, hs, hsg, hm⟩ := passes_spec (inc := inc) (n - i - 1) 0 f
    obtain ⟨g, e1, h1, τ, ht, htg⟩ := bubbleLoop_ok (n := n) (inc := inc) k (i + 1) (passes inc (n - i - 1) 0 f) (by omega) (by
      intro x y hy hy' hxy
      by_cases hy2 : y = 0 + (n - i - 1)
      · rw [hy2]; exact hm x (by omega) (by omega)
      · rw [hsg y, hs y (by omega), hsg x]
        refine h _ _ (by omega) hy' ?_
        by_cases hx : x ≤ 0 + (n - i - 1)
        · have := (hs.mem (i := x) (by omega) hx).2; omega
        · rw [hs x (by omega)]; exact hxy)
    refine ⟨g, e1, ?_, τ.trans σ, ht.trans (hs.mono (by omega) (by omega)), fun x => by rw [htg, hsg]; rfl⟩
    rw [show i + (k + 1) = i + 1 + k by omega]; exact h1

theorem bubbleSort_ok {n : Nat} {inc : Bool} (f : Nat → T) :
    ∃ g, bubbleSort n inc f = some g ∧ SortedUpTo inc n g ∧ ∃ σ, RearrangedBy n σ f g := by
  obtain ⟨g, e, h, σ, hs, hg⟩ := bubbleLoop_ok (n := n) (inc := inc) (n - 1) 0 f (by omega) (by intro x y; omega)
  refine ⟨g, e, fun i j hij hj => ?_, σ, fun i hi => ?_, hg⟩
  · by_cases h0 : j = 0
    · have : i = j := by omega
      rw [this]; exact .refl _ _
    · exact h i j (by omega) hj hij
  · by_cases hn : n = 0
    · rcases Nat.eq_zero_or_pos i with hi0 | hi0
      · by_contra hc
        have h1 := hs (σ i) (by omega)
        exact hc (σ.injective h1)
      · exact hs i (by omega)
    · exact hs i (by omega)

/-! ## The sort that returns indexes -/

theorem sortPass_eq {n : Nat} {inc : Bool} (h2 : 2 ≤ n) : ∀ (k fuel j : Nat) (f : Nat → T) (ix : Nat → Nat), j + k = n / 2 → k < fuel →
    ∃ ix', sortPass n inc fuel j f ix = some (passes inc k j f, ix') ∧
      ∀ (d : Nat → T) (τ : Equiv.Perm Nat), Within 0 (n / 2) τ → (∀ x, ix x = τ x) → (∀ x, f x = d (τ x)) →
        ∃ σ, Within 0 (n / 2) σ ∧ (∀ x, ix' x = σ x) ∧ ∀ x, passes inc k j f x = d (σ x)
  | 0, fuel + 1, j, f, ix, e, _ => by
    rw [sortPass, if_neg (by omega), passes]
    exact ⟨ix, rfl, fun d τ hw h1 h3 => ⟨τ, hw, h1, h3⟩⟩
  | k + 1, fuel + 1, j, f, ix, e, h => by
    rw [sortPass, if_pos (by omega), rd_lt (by omega), rd_lt (by omega), passes]
    simp only [Option.bind_some]
    split
    · rw [swp_lt (by omega) (by omega), swp_lt (by omega) (by omega)]
      simp only [Option.bind_some]
      obtain ⟨ix', e1, h1⟩ := sortPass_eq h2 k fuel (j + 1) (fun x => f (Equiv.swap j (j + 1) x))
        (fun x => ix (Equiv.swap j (j + 1) x)) (by omega) (by omega)
      refine ⟨ix', e1, fun d τ hw hi hd => h1 d ((Equiv.swap j (j + 1)).trans τ) ?_ (fun x => ?_) (fun x => ?_)⟩
      · exact Within.trans (.swap (by omega) (by omega) (by omega) (by omega)) hw
      · rw [hi]; rfl
      · rw [hd]; rfl
    · obtain ⟨ix', e1, h1⟩ := sortPass_eq h2 k fuel (j + 1) f ix (by omega) (by omega)
      exact ⟨ix', e1, h1⟩

theorem sortLoop_ok {n : Nat} {inc : Bool} (h2 : 2 ≤ n) (d : Nat → T) : ∀ (k p : Nat) (f : Nat → T) (ix : Nat → Nat) (τ : Equiv.Perm Nat),
    Placed inc (n / 2 + 1 - p) (n / 2 + 1) f → Within 0 (n / 2) τ → (∀ x, ix x = τ x) → (∀ x, f x = d (τ x)) →
    ∃ g ix', sortLoop n inc k f ix = some (g, ix') ∧ Placed inc (n / 2 + 1 - (p + k)) (n / 2 + 1) g ∧
      ∃ σ, Within 0 (n / 2) σ ∧ (∀ x, ix' x = σ x) ∧ ∀ x, g x = d (σ x)
  | 0, p, f, ix, τ, h, hw, hi, hd => ⟨f, ix, rfl, h, τ, hw, hi, hd⟩
  | k + 1, p, f, ix, τ, h, hw, hi, hd => by
    obtain ⟨ix1, e1, h1⟩ := sortPass_eq (inc := inc) h2 (n / 2) (n + 1) 0 f ix (by omega) (by omega)
    obtain ⟨τ1, hw1, hi1, hd1⟩ := h1 d τ hw hi hd
    have hp : Placed inc (n / 2 + 1 - (p + 1)) (n / 2 + 1) (passes inc (n / 2) 0 f) := by
      have hsplit : n / 2 = (n / 2 - p) + (n / 2 - (n / 2 - p)) := by omega
      obtain ⟨σ, hs, hsg, hm⟩ := passes_spec (inc := inc) (n / 2 - p) 0 f
      have hpl : Placed inc (n / 2 + 1 - (p + 1)) (n / 2 + 1) (passes inc (n / 2 - p) 0 f) := by
        intro x y hy hy' hxy
        by_cases hy2 : y = 0 + (n / 2 - p)
        · rw [hy2]; exact hm x (by omega) (by omega)
        · rw [hsg y, hs y (by omega), hsg x]
          refine h _ _ (by omega) hy' ?_
          by_cases hx : x ≤ 0 + (n / 2 - p)
          · have := (hs.mem (i := x) (by omega) hx).2; omega
          · rw [hs x (by omega)]; exact hxy
      have hno := passes_noop (inc := inc) (n / 2 - (n / 2 - p)) (0 + (n / 2 - p)) (passes inc (n / 2 - p) 0 f)
        (fun x h1 h2 => hpl _ _ (by omega) (by omega) (by omega))
      rw [hsplit, passes_add, hno, ← hsplit]
      exact hpl
    obtain ⟨g, ix', e2, h3, h4⟩ := sortLoop_ok h2 d k (p + 1) _ ix1 τ1 hp hw1 hi1 hd1
    refine ⟨g, ix', ?_, ?_, h4⟩
    · rw [sortLoop, e1]; exact e2
    · rw [show p + (k + 1) = p + 1 + k by omega]; exact h3

theorem indexSort_ok {n : Nat} {inc : Bool} (f : Nat → T) :
    ∃ g ix, indexSort n inc f = some (g, ix) ∧ SortedUpTo inc (min (n / 2 + 1) n) g ∧ (∀ i, n / 2 < i → g i = f i) ∧
      ∃ σ, RearrangedBy n σ f g ∧ ∀ i, ix i = σ i := by
  by_cases h2 : 2 ≤ n
  · obtain ⟨g, ix, e, h, σ, hs, hi, hg⟩ := sortLoop_ok (inc := inc) h2 f (n - 1) 0 f (fun i => i) (Equiv.refl _)
      (by intro x y; omega) (.refl _ _) (fun _ => rfl) (fun _ => rfl)
    refine ⟨g, ix, e, fun i j hij hj => ?_, fun i hi' => by rw [hg, hs i (by omega)], σ, ⟨fun i hi' => hs i (by omega), hg⟩, hi⟩
    by_cases h0 : j = 0
    · have : i = j := by omega
      rw [this]; exact .refl _ _
    · exact h i j (by omega) (by omega) hij
  · have e0 : n - 1 = 0 := by omega
    refine ⟨f, fun i => i, by rw [indexSort, e0]; rfl, fun i j hij hj => ?_, fun _ _ => rfl, Equiv.refl _, ⟨fun _ _ => rfl, fun _ => rfl⟩, fun _ => rfl⟩
    have : i = j := by omega
    rw [this]; exact .refl _ _

end Verif.Sorting
