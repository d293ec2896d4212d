import Verif.Proof.Heap
import Mathlib.Data.Nat.Basic

/-!
# Properties C39, C40, C48: sorting helpers and streaming top-k
-/

namespace Verif.Props

open Verif.Spec Verif.Sorting

variable {T : Type} [LinearOrder T]

/-- **C39** Heap sort: on every vector, in both directions, all accesses are inside the vector and the result is a
sorted rearrangement of it. -/
theorem C39_heap_sort (n : Nat) (inc : Bool) (f : Nat → T) :
    ∃ g, heapSort n inc f = some g ∧ SortedUpTo inc n g ∧ ∃ σ, RearrangedBy n σ f g := heapSort_ok f

/-- **C39** Bubble sort likewise. -/
theorem C39_bubble_sort (n : Nat) (inc : Bool) (f : Nat → T) :
    ∃ g, bubbleSort n inc f = some g ∧ SortedUpTo inc n g ∧ ∃ σ, RearrangedBy n σ f g := bubbleSort_ok f

/-- A vector given by its elements. -/
def vec (l : List Nat) (i : Nat) : Nat := l.getD i 0

example : (heapSort 5 true (vec [3, 1, 4, 1, 5])).map (fun g => (List.range 5).map g) = some [1, 1, 3, 4, 5] := by decide

example : (bubbleSort 5 false (vec [3, 1, 4, 1, 5])).map (fun g => (List.range 5).map g) = some [5, 4, 3, 1, 1] := by decide

/-- **C40** After any stream of values the collector holds the `k` largest (smallest) of them as a multiset, or all of
them if there are fewer. -/
theorem C40_top_k [Inhabited T] {k : Nat} (hk : 1 ≤ k) (big : Bool) (vs : List T) :
    ∃ S, (TopK.new k big).stream vs = some S ∧ IsTopK big k vs ((List.range S.size).map S.data) := by
  have h0 : (TopK.new k big : TopK T).Inv [] :=
    ⟨hk, by simp [TopK.new], ⟨by simp [TopK.held, TopK.new], [], by simp [TopK.held, TopK.new], by simp⟩,
      fun e => by simp [TopK.new] at e; omega⟩
  obtain ⟨S, e, h, ek, eb⟩ := stream_ok vs h0
  refine ⟨S, e, ?_⟩
  have := h.top
  rw [ek, eb] at this
  exact this

/-- What is held is determined by the stream: any two collections with the property of `IsTopK` agree up to order. -/
theorem C40_unique {big : Bool} {k : Nat} {seen a b : List T} (ha : IsTopK big k seen a) (hb : IsTopK big k seen b) :
    a.Perm b := by
  obtain ⟨la, ra, pa, da⟩ := ha
  obtain ⟨lb, rb, pb, db⟩ := hb
  rw [List.perm_iff_count]
  have hp : (a ++ ra).Perm (b ++ rb) := pa.trans pb.symm
  have hlen : a.length = b.length := by rw [la, lb]
  -- an element that `a` has more often than `b` is beaten by one that `b` has more often
  have key : ∀ (a b ra rb : List T), (a ++ ra).Perm (b ++ rb) → a.length = b.length →
      (∀ x ∈ a, ∀ y ∈ ra, Dir big y x) → (∀ x ∈ b, ∀ y ∈ rb, Dir big y x) → ∀ x, a.count x ≤ b.count x := by
    intro a b ra rb hp hl da db x
    by_contra hc
    have hcx : b.count x < a.count x := by omega
    have hy : ∃ y, a.count y < b.count y := by
      by_contra hno
      have hsub : b.Subperm a := List.subperm_iff_count.2 (fun y => by
        by_contra h; exact hno ⟨y, by omega⟩)
      have := (hsub.perm_of_length_le (by omega)).count_eq x
      omega
    obtain ⟨y, hy⟩ := hy
    have h1 := hp.count_eq x
    have h2 := hp.count_eq y
    rw [List.count_append, List.count_append] at h1 h2
    have hxa : x ∈ a := List.count_pos_iff.1 (by omega)
    have hxb : x ∈ rb := List.count_pos_iff.1 (by omega)
    have hya : y ∈ b := List.count_pos_iff.1 (by omega)
    have hyb : y ∈ ra := List.count_pos_iff.1 (by omega)
    have d1 := da x hxa y hyb
    have d2 := db y hya x hxb
    have : x = y := by
      cases big
      · simp only [Dir, Bool.false_eq_true, if_false] at d1 d2; exact le_antisymm d1 d2
      · simp only [Dir, if_true] at d1 d2; exact le_antisymm d2 d1
    subst this
    omega
  intro x
  exact Nat.le_antisymm (key a b ra rb hp hlen da db x) (key b a rb ra hp.symm hlen.symm db da x)

/-- The two largest of five values. -/
example : ((TopK.new 2 true).stream [3, 1, 4, 1, 5]).map (fun S => (List.range S.size).map S.data) = some [4, 5] := by decide

example : IsTopK true 2 [3, 1, 4, 1, 5] [4, 5] := ⟨rfl, [3, 1, 1], by decide, by simp [Dir]⟩

/-- **C48** (violated) The sort that also returns the indexes does not sort three elements. -/
theorem C48_false : ∃ f : Nat → Nat, ∃ g ix, indexSort 3 true f = some (g, ix) ∧ ¬ SortedUpTo true 3 g := by
  refine ⟨vec [1, 3, 2], _, _, rfl, fun h => ?_⟩
  have := h 1 2 (by decide) (by decide)
  revert this
  simp only [Dir, if_true]
  decide

/-- **C48** (what holds) All accesses are inside the vectors, the result is a rearrangement of the data by the returned
indexes, its first `n / 2 + 1` elements are sorted and the others are as before. -/
theorem C48_half_partial (n : Nat) (inc : Bool) (f : Nat → T) :
    ∃ g ix, indexSort n inc f = some (g, ix) ∧ SortedUpTo inc (min (n / 2 + 1) n) g ∧ (∀ i, n / 2 < i → g i = f i) ∧
      ∃ σ, RearrangedBy n σ f g ∧ ∀ i, ix i = σ i := indexSort_ok f

example : (indexSort 5 true (vec [3, 2, 1, 0, 9])).map (fun r => ((List.range 5).map r.1, (List.range 5).map r.2)) =
    some ([1, 2, 3, 0, 9], [2, 1, 0, 3, 4]) := by decide

end Verif.Props
