import Verif.Proof.Helper

/-!
# Properties C34, C44, C45, C51–C55: helpers
-/

namespace Verif.Props

open Verif.Spec Verif.Helper

variable {T : Type}

/-- **C34** With room for one more entry than the list, entry `i` of the integral array is the sum of the first `i`
values. -/
theorem C34_prefix_sums [Add T] [Zero T] {m n : Nat} (hm : n < m) (src res : Nat → T) :
    ∃ r, integralArray m n src res = some r ∧ (∀ i, i ≤ n → r i = prefixSum src i) ∧ ∀ i, n < i → r i = res i := by
  rw [integralArray, wrv_lt (by omega)]
  simp only [Option.bind_some]
  obtain ⟨r, e, h1, h2⟩ := integralLoop_ok (src := src) hm n 0 (fun y => if y = 0 then 0 else res y) (by omega) (by
    intro x hx
    rw [show x = 0 by omega, if_pos rfl, prefixSum])
  exact ⟨r, e, h1, fun i hi => by rw [h2 i hi, if_neg (by omega)]⟩

example : (integralArray 4 3 (fun i => [5, 7, 9].getD i 0) (fun _ => 0)).map (fun r => (List.range 4).map r) = some [0, 5, 12, 21] := by decide

/-- **C44** (what holds) The flat index of a multi-index in range is in range, different multi-indexes have different
flat indexes, and every flat index in range is reached. -/
theorem C44_flat_index_partial {n : Nat} {sizes : Nat → Int} (hn : 0 < n) (hs : ∀ i, i < n → 0 < sizes i) :
    (∀ ix, InShape n sizes ix → ∃ q, flatIndex n ix sizes = some q ∧ 0 ≤ q ∧ q < vol sizes n) ∧
    (∀ ix iy, InShape n sizes ix → InShape n sizes iy → flatIndex n ix sizes = flatIndex n iy sizes → ∀ i, i < n → ix i = iy i) ∧
    ∀ q, 0 ≤ q → q < vol sizes n → ∃ ix, InShape n sizes ix ∧ flatIndex n ix sizes = some q := by
  refine ⟨fun ix h => ⟨_, flatIndex_ok hn, horner_range n h⟩, fun ix iy h h' e => ?_, fun q h1 h2 => ?_⟩
  · rw [flatIndex_ok hn, flatIndex_ok hn] at e
    exact horner_inj n h h' (Option.some.inj e)
  · obtain ⟨ix, h, e⟩ := horner_surj n hs q h1 h2
    exact ⟨ix, h, by rw [flatIndex_ok hn, e]⟩

example : InShape 2 (fun i => [2, 3].getD i 0) (fun i => [1, 2].getD i 0) := by
  intro i hi
  match i, hi with
  | 0, _ => decide
  | 1, _ => decide

/-- **C44** (violated) The inverse conversion always reads the size after the last one. -/
theorem C44_false {n : Nat} (hn : 0 < n) (sizes : Nat → Int) (index : Int) : multiIndex n n sizes index = none := by
  obtain ⟨d, e⟩ := dimLoop_ok (sizes := sizes) (n - 1) 1 1 (show 1 + (n - 1) ≤ n by omega)
  rw [multiIndex, e]
  exact multiLoop_none n 0 index d _ hn (by omega)

/-- **C44** (violated, even if the memory after the sizes can be read) For the shape 2 x 3 the flat index 4, which is
that of (1, 1), is converted to (1, 0), which is that of 3. -/
theorem C44_wrong_value : ∃ ix, multiIndex 2 3 (fun i => [2, 3, 1].getD i 0) 4 = some ix ∧ ix 0 = 1 ∧ ix 1 = 0 ∧
    flatIndex 2 ix (fun i => [2, 3, 1].getD i 0) = some 3 := ⟨_, rfl, by decide, by decide, by decide⟩

/-- **C45** Reversing the bytes of a 32-bit integer: the result is a 32-bit integer, its bytes are those of the
argument in reverse, and reversing again gives the argument. -/
theorem C45_reverse {v : Int} (h1 : -2 ^ 31 ≤ v) (h2 : v < 2 ^ 31) :
    -2 ^ 31 ≤ reverseI32 v ∧ reverseI32 v < 2 ^ 31 ∧ (∀ k, k < 4 → byteOf (reverseI32 v) k = byteOf v (3 - k)) ∧
      reverseI32 (reverseI32 v) = v := by
  obtain ⟨a1, a2, e1, e2, e3, e4⟩ := reverse_bytes v
  refine ⟨a1, a2, fun k hk => ?_, reverse_twice h1 h2⟩
  match k, hk with
  | 0, _ => simpa [byteOf] using e1
  | 1, _ => simpa [byteOf] using e2
  | 2, _ => simpa [byteOf] using e3
  | 3, _ => simpa [byteOf] using e4

example : reverseI32 0x01020380 = -2147286527 := by decide

/-- **C45** The counters return the number of one bits of the 32-bit and 64-bit representation, for every integer. -/
theorem C45_ones (v : Int) : numberOf1 v = oneBits v 32 ∧ numberOf1Long v = oneBits v 64 := by
  constructor
  · rw [numberOf1, onesLoop_ok, Nat.zero_add]
  · rw [numberOf1Long, onesLoop_ok, Nat.zero_add]

example : numberOf1 (-1) = 32 ∧ numberOf1 (-2147483648) = 1 ∧ numberOf1Long 255 = 8 := by decide

/-- **C51** (violated) Flipping a vector of four elements does not reverse it. -/
theorem C51_false : ∃ g, flipVector 4 (fun i => [1, 2, 3, 4].getD i 0) = some g ∧ (List.range 4).map g = [4, 1, 3, 2] := ⟨_, rfl, by decide⟩

/-- **C51** (what holds) The result is a rearrangement; vectors of up to three elements are reversed. -/
theorem C51_small_partial (n : Nat) (f : Nat → T) :
    ∃ g, flipVector n f = some g ∧ (∃ σ, RearrangedBy n σ f g) ∧ (n ≤ 3 → ∀ i, i < n → g i = f (n - 1 - i)) := by
  obtain ⟨g, σ, e, hw, hg⟩ := flipLoop_ok (n := n) (n / 2) 0 f (by omega)
  refine ⟨g, e, ⟨σ, fun i hi => ?_, hg⟩, fun h3 i hi => ?_⟩
  · rcases Nat.eq_zero_or_pos i with hi0 | hi0
    · by_contra hc
      have h1 := hw (σ i) (by omega)
      exact hc (σ.injective h1)
    · exact hw i (by omega)
  · match n, h3 with
    | 1, _ =>
      cases Option.some.inj e
      rw [show i = 0 by omega]
    | 2, _ =>
      cases Option.some.inj e
      match i, hi with
      | 0, _ => rfl
      | 1, _ => rfl
    | 3, _ =>
      cases Option.some.inj e
      match i, hi with
      | 0, _ => rfl
      | 1, _ => rfl
      | 2, _ => rfl

/-- The elements that come first, and the others. -/
def wantFront (oddFront : Bool) (a : Int) : Bool := decide (a % 2 = 1) == oddFront

/-- **C52** (what holds) For nonnegative values the order keeping sort by parity gives the elements of the wanted parity
followed by the others, each in their original order. -/
theorem C52_nonneg_partial {n : Nat} {f : Nat → Int} (oddFront : Bool) (hf : ∀ i, i < n → 0 ≤ f i) :
    ∃ g, oddEvenStable n oddFront f = some g ∧ (List.range n).map g =
      ((List.range n).map f).filter (wantFront oddFront) ++ ((List.range n).map f).filter (fun a => !wantFront oddFront a) := by
  obtain ⟨g, e, hp, hk⟩ := oeLoop_ok (n := n) (o := oddFront) (n - 1) 0 f (by omega) hf (by intro x y; omega)
  refine ⟨g, e, ?_⟩
  rw [split_of_placed n hp, hk, hk]
  have h0 : (fun a => decide (key oddFront a = 0)) = wantFront oddFront := by
    funext a
    rcases (show a % 2 = 0 ∨ a % 2 = 1 by omega) with h | h <;> cases oddFront <;> simp [key, wantFront, h]
  have h1 : (fun a => decide (key oddFront a = 1)) = fun a => !wantFront oddFront a := by
    funext a
    rcases (show a % 2 = 0 ∨ a % 2 = 1 by omega) with h | h <;> cases oddFront <;> simp [key, wantFront, h]
  unfold kind
  rw [h0, h1]

example : (oddEvenStable 5 true (fun i => [2, 3, 4, 5, 7].getD i 0)).map (fun g => (List.range 5).map g) = some [3, 5, 7, 2, 4] := by decide

/-- **C52** (violated) With odd elements first, the negative odd number of `[2, -1]` stays at the end. -/
theorem C52_false : ∃ g, oddEvenStable 2 true (fun i => [2, -1].getD i 0) = some g ∧ (List.range 2).map g = [2, -1] := ⟨_, rfl, by decide⟩

/-- **C53** (violated) Copying from pointers to an empty vector gives an empty vector, whatever the source. -/
theorem C53_false (m : Nat) (src : Nat → Nat) (mem res : Nat → T) : ∃ r, instanceFromPointer 0 m src mem res = some (0, r) := ⟨res, rfl⟩

/-- **C53** (what holds) A vector that already has the right size gets all the elements. -/
theorem C53_same_size_partial (n : Nat) (src : Nat → Nat) (mem res : Nat → T) :
    ∃ r, instanceFromPointer n n src mem res = some (n, r) ∧ ∀ i, i < n → r i = mem (src i) := by
  obtain ⟨r, e, h⟩ := instLoop_ok (src := src) (mem := mem) (Nat.le_refl n) n 0 res (by omega)
  refine ⟨r, by rw [instanceFromPointer, e]; rfl, fun i hi => by rw [h, if_pos (by omega)]⟩

/-- **C54** The index of the maximum (minimum) is the first index at which no value is larger (smaller). -/
theorem C54_extreme [LinearOrder T] {n : Nat} (hn : 0 < n) (mx : Bool) (f : Nat → T) :
    ∃ r, indexOfExtreme n mx f = some r ∧ r < n ∧ (∀ j, j < n → Dir mx (f j) (f r)) ∧ ∀ j, j < r → ¬ Dir mx (f r) (f j) :=
  extremeLoop_ok (n - 1) 1 0 (by omega) (by omega) (fun j hj => by rw [show j = 0 by omega]; exact .refl _ _) (fun j hj => by omega)

example : indexOfExtreme 5 true (fun i => [3, 8, 1, 8, 2].getD i 0) = some 1 ∧
    indexOfExtreme 5 false (fun i => [3, 8, 1, 8, 2].getD i 0) = some 2 := by decide

/-- **C55** (what holds) Up to 12 the number of combinations is right. -/
theorem C55_small_partial {n k : Nat} (h : n ≤ 12) (hk : k ≤ n) : combination n k = some (binom n k : Int) := combination_ok h hk

example : combination 5 2 = some 10 := by decide

/-- **C55** (violated) From 13 on the factorial overflows, although 13 of 13 is 1. -/
theorem C55_false {n : Nat} (h : 13 ≤ n) (k : Nat) : combination n k = none := by
  rw [combination, factorial_none h]
  split <;> rfl

end Verif.Props
