import Verif.Proof.AutoCannyTrace

/-!
# Properties C142–C143: removing small edges and following edges in `img_auto_threshold_canny`

`temp` are the edges found with the lowest threshold; `c.high` and `c.low` the thresholds of a pixel; a pixel of `temp` above its high threshold
is a strong pixel.
-/

namespace Verif.Props

open Verif.Spec
open Verif.AutoCanny (Cfg removeAll innerPixels traceAll allPixels detect remove_spec trace_spec)
open Relation (ReflTransGen)

/-- **C142** (partial: edges that do not touch the border of the image).  The removal ends without leaving the image and only removes pixels.
Of an edge apart from the border, all pixels stay if one of them has at least the magnitude `keep` or there are more than `noise` of them, and
none otherwise. -/
theorem C142_small_edges_partial (c : Cfg) (E : Nat × Nat → Bool) : ∃ s, removeAll c (innerPixels c) (E, fun _ => false) = some s ∧
    (∀ q, s.1 q = true → E q = true) ∧
    ∀ q ∈ pixels c.w c.h, E q = true → FreeEdge c.w c.h (fun r => E r = true) q →
      (s.1 q = true ↔ KeptEdge c.w c.h (fun r => E r = true) c.mag c.keep c.noise q) := remove_spec c E

/-- Two edges of two and three pixels, apart from the border, of which edges up to two pixels are removed. -/
def smallEdges : Cfg := ⟨9, 5, fun _ => 50, 100, 2, fun _ => 40, fun _ => 20⟩

/-- The pixels of the two edges. -/
def smallSet (p : Nat × Nat) : Bool := p ∈ [(1, 1), (2, 2), (5, 1), (6, 2), (7, 3)]

example : (removeAll smallEdges (innerPixels smallEdges) (smallSet, fun _ => false)).map
    (fun s => [s.1 (1, 1), s.1 (2, 2), s.1 (5, 1), s.1 (6, 2), s.1 (7, 3)]) = some [false, false, true, true, true] := by decide +kernel

/-- The pixel (1, 1) of the example belongs to an edge apart from the border. -/
example : (1, 1) ∈ pixels smallEdges.w smallEdges.h ∧ smallSet (1, 1) = true ∧
    FreeEdge smallEdges.w smallEdges.h (fun r => smallSet r = true) (1, 1) := by
  refine ⟨by decide, by decide, ?_⟩
  intro q hq
  have : smallSet q = true := by
    induction hq with
    | refl => decide
    | tail _ h _ => exact h.2
  unfold smallSet at this
  simp only [List.mem_cons, List.not_mem_nil, or_false, decide_eq_true_eq] at this
  rcases this with rfl | rfl | rfl | rfl | rfl <;> (unfold Inner; decide)

/-- An edge of five pixels, four of them in the first column. -/
def borderSet (p : Nat × Nat) : Bool := p ∈ [(1, 1), (0, 1), (0, 2), (0, 3), (0, 4)]

/-- C142 does not hold of edges at the border: the removal does not go on from a pixel at the border, and so takes the edge of five pixels for
one of three; these are removed, and the others stay. -/
theorem not_C142_border : (removeAll ⟨4, 6, fun _ => 50, 100, 3, fun _ => 40, fun _ => 20⟩ (innerPixels ⟨4, 6, fun _ => 50, 100, 3, fun _ => 40, fun _ => 20⟩)
      (borderSet, fun _ => false)).map (fun s => [s.1 (1, 1), s.1 (0, 1), s.1 (0, 2), s.1 (0, 3), s.1 (0, 4)]) = some [false, false, false, true, true] ∧
    3 < edgeSize 4 6 (fun r => borderSet r = true) (1, 1) := by
  classical
  refine ⟨by decide +kernel, ?_⟩
  unfold edgeSize
  have a1 : EdgeConn 4 6 (fun r => borderSet r = true) (1, 1) (1, 1) := ReflTransGen.refl
  have a2 : EdgeConn 4 6 (fun r => borderSet r = true) (1, 1) (0, 1) := ReflTransGen.tail a1 ⟨by unfold Adj8; decide, by decide⟩
  have a3 : EdgeConn 4 6 (fun r => borderSet r = true) (1, 1) (0, 2) := ReflTransGen.tail a2 ⟨by unfold Adj8; decide, by decide⟩
  have a4 : EdgeConn 4 6 (fun r => borderSet r = true) (1, 1) (0, 3) := ReflTransGen.tail a3 ⟨by unfold Adj8; decide, by decide⟩
  have hsub : ({(1, 1), (0, 1), (0, 2), (0, 3)} : Finset (Nat × Nat)) ⊆ (pixels 4 6).filter (EdgeConn 4 6 (fun r => borderSet r = true) (1, 1)) := by
    intro q hq
    simp only [Finset.mem_insert, Finset.mem_singleton] at hq
    rw [Finset.mem_filter]
    rcases hq with rfl | rfl | rfl | rfl
    · exact ⟨by decide, a1⟩
    · exact ⟨by decide, a2⟩
    · exact ⟨by decide, a3⟩
    · exact ⟨by decide, a4⟩
  exact lt_of_lt_of_le (by decide) (Finset.card_le_card hsub)

/-- **C143**.  A run ends; with the strong edges `F` that the removal left, its edge image contains `F` and lies in `temp`; it contains the pixels
followed from `F` over `temp` with the largest low threshold of a pixel of `F`, and only pixels followed with the smallest. -/
theorem C143_followed (c : Cfg) (temp : Nat × Nat → Bool) (hp : ∀ p, temp p = true → p ∈ pixels c.w c.h) (l1 l2 : Int)
    (hl : ∀ p, temp p = true → c.high p < c.mag p → l1 ≤ c.low p ∧ c.low p ≤ l2) :
    ∃ F R, (removeAll c (innerPixels c) (fun p => temp p && decide (c.high p < c.mag p), fun _ => false)).map (fun s => s.1) = some F ∧
      detect c temp = some R ∧ (∀ q, F q = true → temp q = true ∧ c.high q < c.mag q) ∧ (∀ q, F q = true → R q = true) ∧
      (∀ q, R q = true → temp q = true) ∧
      (∀ q, R q = true → Followed c.w c.h (fun r => F r = true) (fun r => temp r = true) c.mag l1 q) ∧
      (∀ q, Followed c.w c.h (fun r => F r = true) (fun r => temp r = true) c.mag l2 q → R q = true) := by
  obtain ⟨s, h1, h2, _⟩ := remove_spec c fun p => temp p && decide (c.high p < c.mag p)
  have h3 : ∀ q, s.1 q = true → temp q = true ∧ c.high q < c.mag q := by
    intro q hq
    have := h2 q hq
    rw [Bool.and_eq_true, decide_eq_true_eq] at this
    exact this
  obtain ⟨t, k1, k2, k3, k4, k5⟩ := trace_spec (c := c) (E := s.1) (T := temp) (l1 := l1) (l2 := l2) (fun p h => hl p (h3 p h).1 (h3 p h).2)
    (fun p h => (h3 p h).1) hp
  refine ⟨s.1, t.1, by rw [h1]; rfl, ?_, h3, k2, k3, k4, k5⟩
  unfold detect
  rw [h1, Option.bind_some, k1]
  rfl

/-- With one low threshold, the edge image is exactly what is followed. -/
theorem C143_one_threshold (c : Cfg) (temp : Nat × Nat → Bool) (hp : ∀ p, temp p = true → p ∈ pixels c.w c.h) (low : Int)
    (hl : ∀ p, temp p = true → c.high p < c.mag p → c.low p = low) :
    ∃ F R, (removeAll c (innerPixels c) (fun p => temp p && decide (c.high p < c.mag p), fun _ => false)).map (fun s => s.1) = some F ∧
      detect c temp = some R ∧ ∀ q, R q = true ↔ Followed c.w c.h (fun r => F r = true) (fun r => temp r = true) c.mag low q := by
  obtain ⟨F, R, h1, h2, _, _, _, h6, h7⟩ := C143_followed c temp hp low low (fun p h h' => by rw [hl p h h']; exact ⟨le_refl _, le_refl _⟩)
  exact ⟨F, R, h1, h2, fun q => ⟨h6 q, h7 q⟩⟩

/-- A line of strong, weak and too weak pixels. -/
def autoLine : Cfg :=
  ⟨8, 3, fun p => if p.1 = 2 then 120 else if p.1 < 5 then 30 else if p.1 = 5 then 10 else 30, 100, 2, fun _ => 40, fun _ => 20⟩

/-- The middle row. -/
def autoLineSet (p : Nat × Nat) : Bool := decide (p.2 = 1 ∧ p.1 < 8)

example : (∀ p, autoLineSet p = true → p ∈ pixels autoLine.w autoLine.h) ∧
    (∀ p, autoLineSet p = true → autoLine.high p < autoLine.mag p → (20 : Int) ≤ autoLine.low p ∧ autoLine.low p ≤ 20) := by
  refine ⟨?_, fun p _ _ => ⟨le_refl _, le_refl _⟩⟩
  rintro ⟨x, y⟩ h
  unfold autoLineSet at h
  have h := of_decide_eq_true h
  dsimp only at h
  rw [mem_pixels]
  show x < 8 ∧ y < 3
  omega

example : (detect autoLine autoLineSet).map (fun f => (List.range 8).map fun x => f (x, 1)) =
    some [true, true, true, true, true, false, false, false] := by decide +kernel

end Verif.Props
