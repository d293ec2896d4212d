import Verif.Proof.Stroke

/-!
# Properties C146–C148: stroke widths

`stroke invalid rays` is the image of stroke widths from the rays, `normalize invalid img` its conversion to bytes.
-/

namespace Verif.Props

open Verif.Spec
open Verif.Stroke (Ray stroke normalize range range_spec stroke_spec stroke_unique)

/-- **C146**.  From rays that have pixels, the widths are as specified: the smallest width of a ray through the pixel, lowered to the smallest
lower median, over the pixels of such a ray, of these widths. -/
theorem C146_stroke (invalid : Int) (rays : List Ray) (h : ∀ r ∈ rays, r.2 ≠ []) :
    ∃ S, stroke invalid rays = some S ∧ IsStroke rays invalid S := stroke_spec invalid rays h

/-- In particular a pixel on no ray is invalid, and a pixel has at most the width of each ray through it. -/
theorem C146_at_most (invalid : Int) (rays : List Ray) (h : ∀ r ∈ rays, r.2 ≠ []) :
    ∃ S, stroke invalid rays = some S ∧ (∀ p, (∀ r ∈ rays, p ∉ r.2) → S p = invalid) ∧ ∀ r ∈ rays, ∀ p ∈ r.2, S p ≤ r.1 := by
  obtain ⟨S, h1, F, med, a1, a2, a3⟩ := stroke_spec invalid rays h
  refine ⟨S, h1, ?_, ?_⟩
  · intro p hp
    rcases (a3 p).2.2 with e | ⟨r, hr, hm, _⟩
    · rw [e]
      rcases (a1 p).2.2 with e | ⟨r, hr, hm, _⟩
      · exact e
      · exact absurd hm (hp r hr)
    · exact absurd hm (hp r hr)
  · intro r hr p hp
    exact le_trans (a3 p).1 ((a1 p).2.1 r hr hp)

/-- Three rays, crossing at the pixel (2, 0). -/
def threeRays : List Ray := [(5, [(0, 0), (1, 0), (2, 0), (3, 0), (4, 0)]), (2, [(2, 0), (2, 1), (2, 2)]), (3, [(3, 0), (1, 0), (3, 2)])]

example : ∀ r ∈ threeRays, r.2 ≠ [] := by decide

example : (stroke 32767 threeRays).map (fun S => [S (0, 0), S (1, 0), S (2, 0), S (3, 0), S (4, 0), S (5, 0)]) = some [3, 3, 2, 3, 3, 32767] := by
  decide +kernel

/-- **C147**.  The widths do not depend on the order of the rays, nor on how often a ray occurs. -/
theorem C147_order (invalid : Int) (rays rays' : List Ray) (h : ∀ r ∈ rays, r.2 ≠ []) (hm : ∀ r, r ∈ rays ↔ r ∈ rays') :
    stroke invalid rays = stroke invalid rays' := by
  obtain ⟨S, h1, h2⟩ := stroke_spec invalid rays h
  obtain ⟨T, h3, h4⟩ := stroke_spec invalid rays' fun r hr => h r ((hm r).2 hr)
  rw [h1, h3, stroke_unique hm h2 h4]

example : (∀ r ∈ threeRays, r.2 ≠ []) ∧ ∀ r, r ∈ threeRays ↔ r ∈ threeRays.reverse := ⟨by decide, fun _ => List.mem_reverse.symm⟩

/-- **C148** (partial: the widths are positive values of `i16` and differ by less than 200 from one another).  Invalid pixels become 255, and only
they; a larger width becomes a larger byte. -/
theorem C148_normalize_partial (invalid : Int) (img : List Int) (hp : ∀ v ∈ img, v ≠ invalid → 0 < v ∧ v ≤ 32767)
    (hd : ∀ v ∈ img, ∀ u ∈ img, v ≠ invalid → u ≠ invalid → v - u < 200) :
    ∃ g : Int → Int, normalize invalid img = img.map g ∧ (∀ v ∈ img, 0 ≤ g v ∧ g v ≤ 255) ∧ (∀ v ∈ img, g v = 255 ↔ v = invalid) ∧
      ∀ v ∈ img, ∀ u ∈ img, v ≠ invalid → u ≠ invalid → (v < u ↔ g v < g u) := by
  obtain ⟨h1, h2, h3, h4, h5⟩ := range_spec invalid img (0, 32767)
  generalize hs : range invalid img (0, 32767) = s at h1 h2 h3 h4 h5
  have hmem : ∀ v ∈ img, v ≠ invalid → s.1 - s.2 < 200 := by
    intro v hv hn
    obtain ⟨a1, a2⟩ := h3 v hv hn
    obtain ⟨a3, a4⟩ := hp v hv hn
    dsimp only at h4 h5
    have k1 : s.1 ∈ img ∧ s.1 ≠ invalid := by
      rcases h4 with e | e
      · omega
      · exact e
    rcases h5 with e | e
    · have : s.2 = v := by omega
      rw [this]
      exact hd _ k1.1 _ hv k1.2 hn
    · exact hd _ k1.1 _ e.1 k1.2 e.2
  refine ⟨fun v => if v = invalid then 255 else 255 * (v - s.2) / (if s.1 - s.2 < 200 then 200 else s.1 - s.2), ?_, ?_, ?_, ?_⟩
  · unfold normalize
    rw [hs]
  · intro v hv
    dsimp only
    by_cases e : v = invalid
    · rw [if_pos e]; decide
    · obtain ⟨a1, a2⟩ := h3 v hv e
      have := hmem v hv e
      rw [if_neg e, if_pos this]
      omega
  · intro v hv
    dsimp only
    by_cases e : v = invalid
    · rw [if_pos e]; exact ⟨fun _ => e, fun _ => rfl⟩
    · obtain ⟨a1, a2⟩ := h3 v hv e
      have := hmem v hv e
      rw [if_neg e, if_pos this]
      exact ⟨fun h => by omega, fun h => absurd h e⟩
  · intro v hv u hu nv nu
    dsimp only
    have := hmem v hv nv
    rw [if_neg nv, if_neg nu, if_pos this]
    omega

example : (∀ v ∈ [3, 32767, 7, 100], v ≠ 32767 → 0 < v ∧ v ≤ 32767) ∧
    (∀ v ∈ [3, 32767, 7, 100], ∀ u ∈ [3, 32767, 7, 100], v ≠ (32767 : Int) → u ≠ 32767 → v - u < (200 : Int)) ∧
    normalize 32767 [3, 32767, 7, 100] = [0, 255, 5, 123] := by decide

/-- C148 does not hold of widths that differ by more: the largest width becomes 255 as invalid pixels do. -/
theorem not_C148_wide : normalize 32767 [3, 32767, 203] = [0, 255, 255] := by decide

/-- And with a difference above 255, different widths become the same byte. -/
theorem not_C148_same : normalize 32767 [1, 2, 1000] = [0, 0, 255] := by decide

end Verif.Props
