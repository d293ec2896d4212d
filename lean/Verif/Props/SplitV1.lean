import Verif.Model.SplitV1
import Mathlib.Data.List.Range
import Mathlib.Algebra.BigOperators.Group.List.Basic

/-!
# V1: the outermost regions are distributed over the threads (C31)
-/

namespace Verif.Props

open Verif.SplitV1

/-- Regions `a` to `b - 1`, each with the place after all earlier ones. -/
def places (sizes : List Nat) (a b : Nat) : List (Nat × Nat) :=
  (List.range' a (b - a)).map fun j => (j, (sizes.take j).sum)

/-- C31: the threads together extract every outermost region once, each to the place after all earlier ones. -/
def AllExtracted (T : Nat) (sizes : List Nat) : Prop := extractTop T sizes = some (places sizes 0 sizes.length)

theorem take_succ_sum {sizes : List Nat} {i s : Nat} (h : sizes[i]? = some s) :
    (sizes.take (i + 1)).sum = (sizes.take i).sum + s := by
  rw [List.take_add_one, h]
  simp

theorem walk_ok {sizes : List Nat} : ∀ {n i : Nat}, i + n ≤ sizes.length →
    walk sizes n i (sizes.take i).sum = some (places sizes i (i + n))
  | 0, i, _ => by simp [walk, places]
  | n + 1, i, h => by
    have hi : i < sizes.length := by omega
    have ih := walk_ok (sizes := sizes) (n := n) (i := i + 1) (by omega)
    rw [take_succ_sum (List.getElem?_eq_getElem hi)] at ih
    simp only [walk, List.getElem?_eq_getElem hi, Option.bind_some, ih, Option.map_some]
    unfold places
    rw [show i + (n + 1) - i = n + 1 by omega, show i + 1 + n - (i + 1) = n by omega, List.range'_succ]
    rfl

theorem places_append {sizes : List Nat} {a b c : Nat} (h1 : a ≤ b) (h2 : b ≤ c) :
    places sizes a b ++ places sizes b c = places sizes a c := by
  unfold places
  rw [← List.map_append]
  congr 1
  have := List.range'_append (s := a) (m := b - a) (n := c - b) (step := 1)
  rw [show a + 1 * (b - a) = b by omega, show b - a + (c - b) = c - a by omega] at this
  exact this

theorem works_congr {sizes : List Nat} {stop off stop' off' : Nat → Nat} : ∀ {n : Nat}, (∀ k < n, stop' k = stop k) →
    (∀ k < n, off' k = off k) → works sizes stop' off' n = works sizes stop off n
  | 0, _, _ => rfl
  | n + 1, h1, h2 => by
    have ih := works_congr (sizes := sizes) (n := n) (fun k hk => h1 k (by omega)) (fun k hk => h2 k (by omega))
    simp only [works, ih]
    congr 1
    funext a
    congr 1
    unfold work
    rw [h1 n (by omega), h2 n (by omega)]
    by_cases h0 : n = 0
    · simp [h0]
    · rw [h1 (n - 1) (by omega)]

/-- Before region `i`; the current thread begins with region `lo`. -/
structure Splitting (sizes : List Nat) (T i index : Nat) (stop off : Nat → Nat) (lo : Nat) : Prop where
  le : lo ≤ i
  len : i ≤ sizes.length
  lt : index < T
  before : works sizes stop off index = some (places sizes 0 lo)
  start : (if index = 0 then 0 else stop (index - 1) + 1) = lo
  offset : off index = (sizes.take lo).sum
  used : lo < i → stop index + 1 = i
  unused : lo = i → stop index = 0
  rest : ∀ k, index < k → stop k = 0
  zero : index = 0 → lo = 0

theorem works_rest {sizes : List Nat} {stop off : Nat → Nat} {index : Nat} {l : List (Nat × Nat)}
    (h : works sizes stop off (index + 1) = some l) (hr : ∀ k, index < k → stop k = 0) :
    ∀ n, works sizes stop off (index + 1 + n) = some l
  | 0 => h
  | n + 1 => by
    rw [show index + 1 + (n + 1) = (index + 1 + n) + 1 by omega]
    have h0 : stop (index + 1 + n) = 0 := hr _ (by omega)
    have : work sizes stop off (index + 1 + n) = some [] := by
      unfold work
      simp only [h0, show ¬ index + 1 + n = 0 by omega, if_false]
      rw [show 0 + 1 - (stop (index + 1 + n - 1) + 1) = 0 by omega]
      rfl
    simp only [works, works_rest h hr n, this, Option.bind_some, Option.map_some, List.append_nil]

/-- What all threads do when the loop ends with region `i`. -/
theorem Splitting.done {sizes : List Nat} {T i index : Nat} {stop off : Nat → Nat} {lo : Nat}
    (J : Splitting sizes T i index stop off lo) (hi : 0 < i) : works sizes stop off T = some (places sizes 0 i) := by
  have hw : work sizes stop off index = some (places sizes lo i) := by
    unfold work
    simp only [J.start, J.offset]
    by_cases hlo : lo < i
    · rw [J.used hlo, walk_ok (by have := J.len; omega), show lo + (i - lo) = i by omega]
    · have he : lo = i := by have := J.le; omega
      rw [J.unused he, show 0 + 1 - lo = 0 by omega]
      simp [walk, places, he]
  have h1 : works sizes stop off (index + 1) = some (places sizes 0 i) := by
    simp only [works, J.before, Option.bind_some, hw, Option.map_some, places_append (Nat.zero_le _) J.le]
  have := works_rest h1 J.rest (T - (index + 1))
  rw [show index + 1 + (T - (index + 1)) = T by have := J.lt; omega] at this
  exact this

/-- The next region goes to the current thread. -/
theorem Splitting.add {sizes : List Nat} {T i index : Nat} {stop off : Nat → Nat} {lo : Nat}
    (J : Splitting sizes T i index stop off lo) (hi : i < sizes.length) :
    Splitting sizes T (i + 1) index (upd stop index i) off lo where
  le := by have := J.le; omega
  len := hi
  lt := J.lt
  before := by
    rw [← J.before]
    refine works_congr (fun k hk => ?_) (fun _ _ => rfl)
    have : ¬ k = index := by omega
    simp [upd, this]
  start := by
    rw [← J.start]
    by_cases h0 : index = 0
    · simp [h0]
    · have : ¬ index - 1 = index := by omega
      simp [upd, h0, this]
  offset := J.offset
  used := fun _ => by simp [upd]
  unused := fun h => by have := J.le; omega
  rest := fun k hk => by
    have : ¬ k = index := by omega
    simp [upd, this, J.rest k hk]
  zero := J.zero

/-- The next thread begins. -/
theorem Splitting.next {sizes : List Nat} {T i index : Nat} {stop off : Nat → Nat} {lo : Nat}
    (J : Splitting sizes T i index stop off lo) (hlo : lo < i) (hT : index + 1 < T) :
    Splitting sizes T i (index + 1) stop (upd off (index + 1) (sizes.take i).sum) i where
  le := Nat.le_refl _
  len := J.len
  lt := hT
  before := by
    have hw : work sizes stop off index = some (places sizes lo i) := by
      unfold work
      simp only [J.start, J.offset]
      rw [J.used hlo, walk_ok (by have := J.len; omega), show lo + (i - lo) = i by omega]
    have h1 : works sizes stop off (index + 1) = some (places sizes 0 i) := by
      simp only [works, J.before, Option.bind_some, hw, Option.map_some, places_append (Nat.zero_le _) J.le]
    rw [← h1]
    refine works_congr (fun _ _ => rfl) (fun k hk => ?_)
    have : ¬ k = index + 1 := by omega
    simp [upd, this]
  start := by simpa using J.used hlo
  offset := by simp [upd]
  used := fun h => absurd h (Nat.lt_irrefl _)
  unused := fun _ => J.rest _ (Nat.lt_succ_self _)
  rest := fun k hk => J.rest k (by omega)
  zero := fun h => absurd h (by omega)

/-- The loop: the first `m` regions are distributed, and if these are not all, the sizes of the others are together less
than the remainder. -/
theorem splitLoop_ok {sizes : List Nat} {T Q : Nat} (hT : 0 < T) : ∀ {ss : List Nat} {i cur index par : Nat}
    {stop off : Nat → Nat} {lo : Nat}, Splitting sizes T i index stop off lo → sizes.drop i = ss → cur = (sizes.take i).sum →
    par = (index + 1) * Q → 0 < i ∨ ss ≠ [] →
    ∃ m, m ≤ sizes.length ∧ works sizes (splitLoop T Q ss i cur index par stop off).1
        (splitLoop T Q ss i cur index par stop off).2 T = some (places sizes 0 m) ∧
      (m < sizes.length → T * Q < (sizes.take m).sum)
  | [], i, cur, index, par, stop, off, lo, J, hd, _, _, h0 => by
    have hi : i = sizes.length := by
      have := J.len
      rw [List.drop_eq_nil_iff] at hd
      omega
    exact ⟨i, J.len, J.done (by simpa using h0), fun h => by omega⟩
  | s :: ss, i, cur, index, par, stop, off, lo, J, hd, hc, hp, h0 => by
    have hi : i < sizes.length := by
      by_contra hn
      rw [List.drop_eq_nil_of_le (by omega)] at hd
      exact absurd hd (by simp)
    have hs : sizes[i]? = some s := by
      have := List.getElem?_drop (xs := sizes) (i := i) (j := 0)
      rw [hd] at this
      simpa using this.symm
    have hd' : sizes.drop (i + 1) = ss := by
      rw [← List.drop_drop, hd]
      rfl
    have hc' : cur + s = (sizes.take (i + 1)).sum := by rw [take_succ_sum hs, hc]
    have J1 := J.add hi
    simp only [splitLoop]
    split
    · rename_i hlt
      split
      · rename_i hlast
        refine ⟨i + 1, hi, J1.done (Nat.succ_pos _), fun _ => ?_⟩
        rw [← hc', ← hlast]
        rw [hp] at hlt
        exact hlt
      · rename_i hlast
        have J2 := J1.next (by have := J.le; omega) (by have := J.lt; omega)
        rw [← hc'] at J2
        exact splitLoop_ok hT J2 hd' hc' (by rw [hp, Nat.add_mul (index + 1) 1 Q, Nat.one_mul]) (Or.inl (Nat.succ_pos _))
    · exact splitLoop_ok hT J1 hd' hc' hp (Or.inl (Nat.succ_pos _))

/-- The supported thread numbers. -/
def Threads (T : Nat) : Prop := T = 2 ∨ T = 4 ∨ T = 8 ∨ T = 16 ∨ T = 32

theorem extractTop_ok {T : Nat} {sizes : List Nat} (hT : Threads T) :
    ∃ m, m ≤ sizes.length ∧ extractTop T sizes = some (places sizes 0 m) ∧
      (m < sizes.length → (sizes.drop m).sum < sizes.sum % T) := by
  unfold extractTop
  split
  · rename_i h
    exact ⟨0, Nat.zero_le _, by simp [places], fun h' => by simp [h] at h'⟩
  · rename_i h
    have hpos : 0 < T := by unfold Threads at hT; omega
    have hsplit : split T sizes = some (splitLoop T (sizes.sum / T) sizes 0 0 0 (sizes.sum / T) (fun _ => 0) (fun _ => 0)) := by
      unfold split
      exact if_pos hT
    rw [hsplit]
    obtain ⟨m, hm, hw, hl⟩ := splitLoop_ok (sizes := sizes) (T := T) (Q := sizes.sum / T) hpos (ss := sizes) (i := 0)
      (cur := 0) (index := 0) (par := sizes.sum / T) (stop := fun _ => 0) (off := fun _ => 0) (lo := 0)
      ⟨Nat.le_refl _, Nat.zero_le _, hpos, by simp [works, places], by simp, by simp, by simp, by simp, by simp, by simp⟩
      (by simp) (by simp) (by omega) (Or.inr h)
    refine ⟨m, hm, by simpa using hw, fun hlt => ?_⟩
    have h1 := hl hlt
    have h2 := List.sum_take_add_sum_drop sizes m
    have h3 := Nat.div_add_mod sizes.sum T
    omega

/-- C31, the part that holds: all outermost regions are extracted when each has at least as many points as the remainder
of the total size divided by the number of threads. -/
theorem C31_partial {T : Nat} {sizes : List Nat} (hT : Threads T) (hs : ∀ s ∈ sizes, sizes.sum % T ≤ s) :
    AllExtracted T sizes := by
  obtain ⟨m, hm, he, hl⟩ := extractTop_ok (sizes := sizes) hT
  rcases Nat.lt_or_ge m sizes.length with h | h
  · have h1 := hl h
    have h2 : sizes[m] ≤ (sizes.drop m).sum := by
      rw [List.drop_eq_getElem_cons h, List.sum_cons]
      exact Nat.le_add_right _ _
    have h3 := hs sizes[m] (List.getElem_mem h)
    omega
  · have : m = sizes.length := by omega
    rw [AllExtracted, he, this]

/-- C31 holds for two threads. -/
theorem C31_two_partial {sizes : List Nat} (hs : ∀ s ∈ sizes, 0 < s) : AllExtracted 2 sizes :=
  C31_partial (Or.inl rfl) fun s h => by have := hs s h; omega

/-- C31 holds when the smallest region to be reported has at least one point less than there are threads. -/
theorem C31_large_partial {T : Nat} {sizes : List Nat} (hT : Threads T) (hs : ∀ s ∈ sizes, T - 1 ≤ s) : AllExtracted T sizes :=
  C31_partial hT fun s h => by
    have := hs s h
    have hpos : 0 < T := by unfold Threads at hT; omega
    have := Nat.mod_lt sizes.sum hpos
    omega

/-- No region is extracted twice or to a wrong place, also when some are lost. -/
theorem C31_prefix_partial {T : Nat} {sizes : List Nat} (hT : Threads T) :
    ∃ m, m ≤ sizes.length ∧ extractTop T sizes = some (places sizes 0 m) :=
  let ⟨m, hm, he, _⟩ := extractTop_ok (sizes := sizes) hT
  ⟨m, hm, he⟩

/-- C31 is violated: the last region is lost, with 4, 8, 16 and 32 threads. For 32 threads the lost region has 29 points. -/
theorem C31_false : (¬ AllExtracted 4 [3, 2, 2, 3, 1]) ∧
    (¬ AllExtracted 8 (31 :: List.replicate 6 30 ++ [31, 5])) ∧
    (¬ AllExtracted 16 (31 :: List.replicate 14 30 ++ [31, 13])) ∧
    ¬ AllExtracted 32 (31 :: List.replicate 30 30 ++ [31, 29]) := by
  refine ⟨?_, ?_, ?_, ?_⟩ <;> unfold AllExtracted <;> decide +kernel

example : AllExtracted 4 [10, 3, 3, 40, 5] := C31_large_partial (Or.inr (Or.inl rfl)) (by decide)

example : extractTop 4 [10, 3, 3, 40, 5] = some [(0, 0), (1, 10), (2, 13), (3, 16), (4, 56)] := by decide +kernel

end Verif.Props
