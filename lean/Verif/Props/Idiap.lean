import Verif.Proof.IdiapGrid
import Verif.Props.Flood

/-!
# Properties C127, C128 (the Idiap detector)
-/

namespace Verif.Props

open Verif.Spec Verif.Idiap
open Relation (ReflTransGen)

/-- What a pass leaves behind: regions `1 … used - 1` of the pool are the component tree of the image with values `img ^^^ gm`, inside
of the pool, and the list of children of each region holds exactly the regions it is the parent of, once each. -/
structure IdiapTree (w h : Nat) (img : Nat → Nat → Nat) (gm : Nat) (eight : Bool) (v : Idiap.St) : Prop where
  inside : v.used < v.room
  tree : ∃ lab, IsComponentTree (if eight then Adj8 w h else Adj4 w h) (fun p => img p.1 p.2 ^^^ gm) (pixels w h)
    ⟨fun r => 1 ≤ r ∧ r < v.used, lab, fun r => (v.pool r).level, fun r => (v.pool r).parent, fun r => (v.pool r).area⟩
  child : ∀ r, 1 ≤ r → r < v.used → (∀ x, x ∈ (v.pool r).children ↔ 1 ≤ x ∧ x < v.used ∧ (v.pool x).parent = some r) ∧
    (v.pool r).children.Nodup

variable {w h : Nat} {img : Nat → Nat → Nat} {gm : Nat} {eight fromMin fromMax : Bool}

theorem idiap_card : (patch w h img gm eight).px.card = w * h := by simp [patch]

theorem idiap_cap (hP : PatchOK (patch w h img gm eight)) :
    ((patch w h img gm eight).px.image (patch w h img gm eight).gray).card < (patch w h img gm eight).cap := by
  have : ((patch w h img gm eight).px.image (patch w h img gm eight).gray).card ≤ (Finset.range 256).card := by
    apply Finset.card_le_card
    intro g hg
    obtain ⟨i, hi, rfl⟩ := Finset.mem_image.1 hg
    exact Finset.mem_range.2 (hP.gray i hi)
  rw [Finset.card_range] at this
  show _ < 1000
  omega

/-- One pass with the conditions exchanged, and how it is tied to the flooding of V2. -/
theorem idiap_pass (hI : ImageOK w h img gm) : ∃ s : Flood.St, ∀ pool room, 256 ≤ room → ∃ v,
      run true (patch w h img gm eight) (((patch w h img gm eight).nd + 1) * (w * h))
        (Idiap.init (patch w h img gm eight) (fun _ => false) pool room) = .done v ∧
      IdiapTree w h img gm eight v ∧ v.used = s.nreg + 1 ∧ room ≤ v.room ∧
      ∀ r < s.nreg, (v.pool (r + 1)).level = (s.regs r).gray ∧ (v.pool (r + 1)).parent = (s.regs r).parent.map (· + 1) ∧
        (v.pool (r + 1)).area = (s.regs r).size := by
  have hP : PatchOK (patch w h img gm eight) := patch_ok hI.w_pos hI.h_pos hI.img_lt hI.gm_lt
  have hinv := Flood.inv_init hP.ok
  have h1 := Flood.run_inv hP.ok (((patch w h img gm eight).nd + 1) * (w * h)) hinv
  have h2 := fun pool room hr => sim_run hP (((patch w h img gm eight).nd + 1) * (w * h)) hinv (sim_init hP pool room hr)
  revert h1 h2
  cases Flood.run (patch w h img gm eight) (((patch w h img gm eight).nd + 1) * (w * h)) (Flood.init (patch w h img gm eight)) with
  | next s =>
    rintro ⟨cs', F', h1, h2⟩
    have := h1.work_lt
    rw [h2, idiap_card] at this
    omega
  | ub =>
    intro h1
    have := idiap_cap hP
    simp only at h1
    omega
  | done s =>
    rintro ⟨⟨c, hF⟩, -⟩ h2
    refine ⟨s, fun pool room hr => ?_⟩
    obtain ⟨v, v1, v2, v3, v4⟩ := h2 pool room hr
    obtain ⟨hT, hsz⟩ := v4 [c] hF.comps
    have harea : ∀ r < s.nreg, (v.pool (r + 1)).area = (s.regs r).size := by
      intro r hr
      by_cases hp : (s.regs r).parent = none
      · obtain ⟨e, he, rfl⟩ := hF.core.root_cs r hr hp
        rw [hT.area e he, hsz e he]
      · exact hT.areaC r hr hp
    refine ⟨v, v1, ⟨v3, ⟨fun p => s.lab (cell w p.1 p.2) + 1, ?_⟩, ?_⟩, v2, ?_,
      fun r hr => ⟨hT.level r hr, hT.parent r hr, harea r hr⟩⟩
    · rw [v2]
      exact tree_isTree (eight := eight) hF.isTree hT.level hT.parent harea
    · intro r r1 r2
      obtain ⟨t, rfl⟩ : ∃ t, r = t + 1 := ⟨r - 1, by omega⟩
      have ht : t < s.nreg := by omega
      obtain ⟨c1, c2⟩ := hT.child t ht
      refine ⟨fun x => ?_, c2⟩
      rw [c1]
      constructor
      · rintro ⟨u, hu, rfl, hp⟩
        exact ⟨by omega, by omega, by rw [hT.parent u hu, hp]; rfl⟩
      · rintro ⟨x1, x2, hp⟩
        obtain ⟨u, rfl⟩ : ∃ u, x = u + 1 := ⟨x - 1, by omega⟩
        have hu : u < s.nreg := by omega
        rw [hT.parent u hu] at hp
        obtain ⟨e, he1, he2⟩ := Option.map_eq_some_iff.1 hp
        obtain rfl : e = t := by omega
        exact ⟨u, hu, rfl, he1⟩
    · exact run_room _ v1

/-- The passes of a call. -/
def idiapMasks (fromMin fromMax : Bool) : List Nat := (if fromMin then [0] else []) ++ (if fromMax then [255] else [])

theorem idiap_detect (hI : ImageOK w h img 0) : ∃ ss : List Flood.St, ∀ pool, ∃ vs, detect true w h img eight fromMin fromMax pool = .ok vs ∧
    List.Forall₂ (fun gm v => IdiapTree w h img gm eight v) (idiapMasks fromMin fromMax) vs ∧
    List.Forall₂ (fun (s : Flood.St) (v : Idiap.St) => v.used = s.nreg + 1 ∧
      ∀ r < s.nreg, (v.pool (r + 1)).level = (s.regs r).gray ∧ (v.pool (r + 1)).parent = (s.regs r).parent.map (· + 1) ∧
        (v.pool (r + 1)).area = (s.regs r).size) ss vs := by
  have hI' : ImageOK w h img 255 := ⟨hI.w_pos, hI.h_pos, hI.img_lt, by omega⟩
  obtain ⟨s0, h0⟩ := idiap_pass (eight := eight) hI
  obtain ⟨s1, h1⟩ := idiap_pass (eight := eight) hI'
  refine ⟨(if fromMin then [s0] else []) ++ (if fromMax then [s1] else []), fun pool => ?_⟩
  obtain ⟨v0, a1, a2, a3, a4, a5⟩ := h0 pool 256 (le_refl _)
  cases fromMin <;> cases fromMax
  · exact ⟨[], by simp [detect], by simp [idiapMasks], by simp⟩
  · obtain ⟨v1, b1, b2, b3, b4, b5⟩ := h1 pool 256 (le_refl _)
    refine ⟨[v1], ?_, by simpa [idiapMasks] using b2, ?_⟩
    · simp only [detect, pass]
      simp only [Bool.false_eq_true, if_false, if_true, and_false]
      rw [b1]; rfl
    · simpa using ⟨b3, b5⟩
  · refine ⟨[v0], ?_, by simpa [idiapMasks] using a2, ?_⟩
    · simp only [detect, pass]
      simp only [Bool.false_eq_true, if_false, if_true, ne_eq, not_true_eq_false, false_and]
      rw [a1]
    · simpa using ⟨a3, a5⟩
  · obtain ⟨v1, b1, b2, b3, b4, b5⟩ := h1 v0.pool v0.room a4
    refine ⟨[v0, v1], ?_, ?_, ?_⟩
    · simp only [detect, pass]
      simp only [if_false, if_true, ne_eq, not_true_eq_false, false_and]
      rw [a1]
      simp only [OfNat.ofNat_ne_zero, not_false_eq_true, and_self, if_true]
      rw [b1]; rfl
    · simpa [idiapMasks] using ⟨a2, b2⟩
    · simpa using ⟨⟨a3, a5⟩, b3, b5⟩

/-- **C127** With the two conditions of the search for the next gray level exchanged, every pass ends, stays inside of the pool, which
may hold anything before, and leaves the component tree of the image for the neighbourhood that is set. -/
theorem C127_component_tree_partial (hI : ImageOK w h img 0) (pool : Nat → Idiap.Reg) :
    ∃ vs, detect true w h img eight fromMin fromMax pool = .ok vs ∧
      List.Forall₂ (fun gm v => IdiapTree w h img gm eight v) (idiapMasks fromMin fromMax) vs := by
  obtain ⟨ss, h⟩ := idiap_detect (eight := eight) (fromMin := fromMin) (fromMax := fromMax) hI
  obtain ⟨vs, h1, h2, -⟩ := h pool
  exact ⟨vs, h1, h2⟩

theorem idiap_first (hI : ImageOK w h img gm) (h2 : 2 ≤ w * h) (pool : Nat → Idiap.Reg) :
    run false (patch w h img gm eight) (((patch w h img gm eight).nd + 1) * (w * h))
      (Idiap.init (patch w h img gm eight) (fun _ => false) pool 256) = .ub := by
  have hP : PatchOK (patch w h img gm eight) := patch_ok hI.w_pos hI.h_pos hI.img_lt hI.gm_lt
  have hs : (patch w h img gm eight).start = cell w 0 0 := by simp [patch, cell]
  have hw := hI.w_pos
  have hh := hI.h_pos
  have hex : ∃ k, 1 ≤ k ∧ k ≤ (patch w h img gm eight).nd ∧
      (patch w h img gm eight).nb (patch w h img gm eight).start k ≠ (patch w h img gm eight).start := by
    rw [hs]
    by_cases e : w = 1
    · have hy : 1 < h := by rw [e] at h2; omega
      obtain ⟨k, k1, k2, k3⟩ := nb_all (eight := eight) (w := w) (h := h) (x := 0) (y := 0) (x' := 0) (y' := 1)
        (near4 ⟨mem_pixels.2 ⟨hw, hh⟩, mem_pixels.2 ⟨hw, hy⟩, by simp⟩)
      refine ⟨k, k1, k2, fun hc => ?_⟩
      have := cell_inj (by omega) (by omega) (k3.symm.trans hc)
      omega
    · obtain ⟨k, k1, k2, k3⟩ := nb_all (eight := eight) (w := w) (h := h) (x := 0) (y := 0) (x' := 1) (y' := 0)
        (near4 ⟨mem_pixels.2 ⟨hw, hh⟩, mem_pixels.2 ⟨by simp only; omega, hh⟩, by simp⟩)
      refine ⟨k, k1, k2, fun hc => ?_⟩
      have := cell_inj (by omega) (by omega) (k3.symm.trans hc)
      omega
  classical
  obtain ⟨k1, k2, k3⟩ := Nat.find_spec hex
  have hmin : ∀ j, 1 ≤ j → j < Nat.find hex →
      (patch w h img gm eight).nb (patch w h img gm eight).start j = (patch w h img gm eight).start := by
    intro j j1 j2
    by_contra hne
    exact Nat.find_min hex j2 ⟨j1, by omega, hne⟩
  have hg := hP.gray _ (hP.inside _ hP.ok.start_mem _ k1 k2)
  have hW : Waiting (patch w h img gm eight) (Nat.find hex) (Idiap.init (patch w h img gm eight) (fun _ => false) pool 256) := by
    refine .inr ⟨rfl, by simp only [Idiap.init]; omega, ?_, hP.gray _ hP.ok.start_mem⟩
    simp only [Idiap.init]
    rw [Function.update_of_ne k3]
  have hnd := run_waiting k2 k3 hmin hg (((patch w h img gm eight).nd + 1) * (w * h)) hW
  rcases run_real (P := patch w h img gm eight) (((patch w h img gm eight).nd + 1) * (w * h))
      (Idiap.init (patch w h img gm eight) (fun _ => false) pool 256) with h | h
  · exact h
  · obtain ⟨s, hp⟩ := idiap_pass (eight := eight) hI
    obtain ⟨v, hv, -⟩ := hp pool 256 (le_refl _)
    exact absurd (h.trans hv) (hnd v)

/-- **C127**, why it is partial: as the loop is written, every call on an image of two or more pixels reads `boundaryPixels[256]`,
one past the end of the array. -/
theorem not_C127_inside (hI : ImageOK w h img 0) (h2 : 2 ≤ w * h) (hany : fromMin = true ∨ fromMax = true) (pool : Nat → Idiap.Reg) :
    detect false w h img eight fromMin fromMax pool = .ub := by
  have hI' : ImageOK w h img 255 := ⟨hI.w_pos, hI.h_pos, hI.img_lt, by omega⟩
  have a1 := idiap_first (eight := eight) hI h2 pool
  have b1 := idiap_first (eight := eight) hI' h2 pool
  cases fromMin
  · cases fromMax
    · simp at hany
    · simp only [detect, pass]
      simp only [Bool.false_eq_true, if_false, if_true, and_false]
      rw [b1]
  · simp only [detect, pass]
    simp only [if_true, ne_eq, not_true_eq_false, false_and, if_false]
    rw [a1]

/-- **C128** A detector that was used before, whatever is left in its pool, builds the same trees as a new one: as many regions, with
the same level, area and parent at each place, and the same children.  (With the conditions exchanged as in C127.) -/
theorem C128_reuse_partial (hI : ImageOK w h img 0) (pool pool' : Nat → Idiap.Reg) :
    ∃ vs vs', detect true w h img eight fromMin fromMax pool = .ok vs ∧ detect true w h img eight fromMin fromMax pool' = .ok vs' ∧
      List.Forall₂ (fun (v v' : Idiap.St) => v.used = v'.used ∧ ∀ r, 1 ≤ r → r < v.used →
        (v.pool r).level = (v'.pool r).level ∧ (v.pool r).area = (v'.pool r).area ∧ (v.pool r).parent = (v'.pool r).parent ∧
        (v.pool r).children.Perm (v'.pool r).children) vs vs' := by
  obtain ⟨ss, hd⟩ := idiap_detect (eight := eight) (fromMin := fromMin) (fromMax := fromMax) hI
  obtain ⟨vs, h1, h2, h3⟩ := hd pool
  obtain ⟨vs', h1', h2', h3'⟩ := hd pool'
  refine ⟨vs, vs', h1, h1', ?_⟩
  have key : ∀ (ms : List Nat) (ss : List Flood.St) (vs vs' : List Idiap.St),
      List.Forall₂ (fun gm v => IdiapTree w h img gm eight v) ms vs → List.Forall₂ (fun gm v => IdiapTree w h img gm eight v) ms vs' →
      List.Forall₂ (fun (s : Flood.St) (v : Idiap.St) => v.used = s.nreg + 1 ∧
        ∀ r < s.nreg, (v.pool (r + 1)).level = (s.regs r).gray ∧ (v.pool (r + 1)).parent = (s.regs r).parent.map (· + 1) ∧
          (v.pool (r + 1)).area = (s.regs r).size) ss vs →
      List.Forall₂ (fun (s : Flood.St) (v : Idiap.St) => v.used = s.nreg + 1 ∧
        ∀ r < s.nreg, (v.pool (r + 1)).level = (s.regs r).gray ∧ (v.pool (r + 1)).parent = (s.regs r).parent.map (· + 1) ∧
          (v.pool (r + 1)).area = (s.regs r).size) ss vs' →
      List.Forall₂ (fun (v v' : Idiap.St) => v.used = v'.used ∧ ∀ r, 1 ≤ r → r < v.used →
        (v.pool r).level = (v'.pool r).level ∧ (v.pool r).area = (v'.pool r).area ∧ (v.pool r).parent = (v'.pool r).parent ∧
        (v.pool r).children.Perm (v'.pool r).children) vs vs' := by
    intro ms ss vs vs' t1 t2 u1 u2
    induction t1 generalizing ss vs' with
    | nil =>
      cases t2
      exact .nil
    | @cons gm v ms vs a _ ih =>
      cases t2 with
      | @cons _ v' _ vs' b t2 =>
        cases u1 with
        | @cons s _ ss _ c u1 =>
          cases u2 with
          | cons d u2 =>
            refine .cons ⟨by rw [c.1, d.1], ?_⟩ (ih _ _ t2 u1 u2)
            have hall : ∀ r, 1 ≤ r → r < v.used → (v.pool r).level = (v'.pool r).level ∧ (v.pool r).area = (v'.pool r).area ∧
                (v.pool r).parent = (v'.pool r).parent := by
              intro r r1 r2
              obtain ⟨t, rfl⟩ : ∃ t, r = t + 1 := ⟨r - 1, by omega⟩
              have ht : t < s.nreg := by have := c.1; omega
              obtain ⟨x1, x2, x3⟩ := c.2 t ht
              obtain ⟨y1, y2, y3⟩ := d.2 t ht
              exact ⟨x1.trans y1.symm, x3.trans y3.symm, x2.trans y2.symm⟩
            intro r r1 r2
            obtain ⟨e1, e2, e3⟩ := hall r r1 r2
            refine ⟨e1, e2, e3, ?_⟩
            obtain ⟨p1, p2⟩ := a.child r r1 r2
            have hu : v.used = v'.used := by rw [c.1, d.1]
            obtain ⟨q1, q2⟩ := b.child r r1 (by omega)
            rw [List.perm_ext_iff_of_nodup p2 q2]
            intro x
            rw [p1, q1, ← hu]
            constructor
            · rintro ⟨x1, x2, x3⟩; exact ⟨x1, x2, by rw [← (hall x x1 x2).2.2]; exact x3⟩
            · rintro ⟨x1, x2, x3⟩; exact ⟨x1, x2, by rw [(hall x x1 x2).2.2]; exact x3⟩
  exact key _ ss vs vs' h2 h2' h3 h3'

/-- The case: the sample of C01 with junk in the pool has three regions; as written, both passes are undefined. -/
example : (match detect true 3 2 sampleImg false true true (fun _ => ⟨7, 8, 9, some 3, [4, 4]⟩) with
      | .ok [v, v'] => (v.used, (v.pool 3).area, (v.pool 3).children, v'.used, (v'.pool 3).area)
      | _ => (0, 0, [], 0, 0)) = (4, 6, [1], 4, 6) := by decide +kernel

example : (match detect false 3 2 sampleImg false true true (fun _ => ⟨7, 8, 9, some 3, [4, 4]⟩) with
      | .ub => true
      | _ => false) = true := by decide +kernel

example : ImageOK 3 2 sampleImg 0 ∧ 2 ≤ 3 * 2 :=
  ⟨⟨by decide, by decide, fun x y _ _ => by unfold sampleImg; split <;> [skip; split] <;> decide, by decide⟩, by decide⟩

/-- A single pixel is the only image without the read outside. -/
example : (match detect false 1 1 (fun _ _ => 9) true true true (fun _ => ⟨7, 8, 9, some 3, [4, 4]⟩) with
      | .ok [v, v'] => ((v.pool 1).level, (v.pool 1).area, (v'.pool 1).level)
      | _ => (0, 0, 0)) = (9, 1, 246) := by decide +kernel

end Verif.Props
