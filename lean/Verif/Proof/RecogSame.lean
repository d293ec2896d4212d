import Verif.Proof.RecogSpec
import Verif.Spec.Same

/-!
# Proof: selection is the same in two copies of a tree
-/

namespace Verif.Recog

open Relation (ReflTransGen TransGen)
open Verif.Spec

variable {α ι ι' : Type} {px : Finset α} {T : RegionTree α ι} {T' : RegionTree α ι'} {f : ι → ι'} {cfg : Cfg}

theorem same_anc (hS : SameTree px T T' f) (hT : T.Ok) {r s : ι} (hr : T.isReg r)
    (h : ReflTransGen (fun a b => T.parent a = some b) r s) :
    T.isReg s ∧ ReflTransGen (fun a b => T'.parent a = some b) (f r) (f s) := by
  induction h with
  | refl => exact ⟨hr, .refl⟩
  | tail _ h ih =>
    refine ⟨(hT.parent _ ih.1 _ h).1, ih.2.tail ?_⟩
    rw [hS.parent _ ih.1, h]; rfl

theorem same_stability_mp (hS : SameTree px T T' f) (hT : T.Ok) {L : Limits} {r : ι} (hr : T.isReg r) {v : Option ℚ}
    (h : Stability T L r v) : Stability T' L (f r) v := by
  obtain ⟨s, hw, h⟩ := h
  obtain ⟨hs, ha⟩ := same_anc hS hT hr hw.anc
  have hp := hS.parent s hs
  refine ⟨f s, ⟨ha, ?_, fun p' hp' => ?_⟩, ?_⟩
  · rcases hw.within with e | e
    · exact .inl (by rw [e])
    · right; rw [hS.gray s hs, hS.gray r hr]; exact e
  · rw [hp] at hp'
    obtain ⟨p, h1, rfl⟩ := Option.map_eq_some_iff.1 hp'
    rw [hS.gray r hr, hS.gray p (hT.parent s hs p h1).1]; exact hw.last p h1
  · rw [hS.gray s hs, hS.gray r hr, hS.size s hs, hS.size r hr, hp, Option.isSome_map, Option.map_eq_none_iff]
    exact h

theorem same_stability (hS : SameTree px T T' f) (hT : T.Ok) (hT' : T'.Ok) (h32 : Rounding cfg.r32) {r : ι}
    (hr : T.isReg r) {v : Option ℚ} : Stability T' (limits cfg) (f r) v ↔ Stability T (limits cfg) r v := by
  refine ⟨fun h => ?_, same_stability_mp hS hT hr⟩
  obtain ⟨u, hu, _⟩ := vval_stability (m := 0) hT (fun _ => id) h32 (cfg := cfg) hr
  have := stability_unique hT' (hS.reg r hr) h (same_stability_mp hS hT hr hu)
  rw [this]; exact hu

theorem same_lessStable (hS : SameTree px T T' f) (hT : T.Ok) (hT' : T'.Ok) (h32 : Rounding cfg.r32) {r q : ι}
    (hr : T.isReg r) (hq : T.isReg q) :
    LessStable T' (limits cfg) (f r) (f q) ↔ LessStable T (limits cfg) r q := by
  simp only [LessStable, same_stability hS hT hT' h32 hr, same_stability hS hT hT' h32 hq]

theorem same_parent (hS : SameTree px T T' f) (hT : T.Ok) {c r : ι} (hc : T.isReg c) (hr : T.isReg r) :
    T'.parent (f c) = some (f r) ↔ T.parent c = some r := by
  rw [hS.parent c hc, Option.map_eq_some_iff]
  constructor
  · rintro ⟨x, h1, h2⟩
    rwa [← hS.inj x r (hT.parent c hc x h1).1 hr h2]
  · intro h; exact ⟨r, h, rfl⟩

theorem same_suppressed (hS : SameTree px T T' f) (hT : T.Ok) (hT' : T'.Ok) (h32 : Rounding cfg.r32) {r : ι}
    (hr : T.isReg r) : Suppressed T' (limits cfg) (f r) ↔ Suppressed T (limits cfg) r := by
  unfold Suppressed
  constructor
  · rintro (⟨c', h1, h2, h3, h4⟩ | ⟨p', h2, h3, h4⟩)
    · obtain ⟨c, hc, rfl⟩ := hS.surj c' h1
      rw [same_parent hS hT hc hr] at h2
      rw [hS.gray r hr, hS.gray c hc] at h3
      exact .inl ⟨c, hc, h2, h3, (same_lessStable hS hT hT' h32 hr hc).1 h4⟩
    · obtain ⟨p, hp, rfl⟩ := hS.surj p' (hT'.parent _ (hS.reg r hr) _ h2).1
      rw [same_parent hS hT hr hp] at h2
      rw [hS.gray r hr, hS.gray p hp] at h3
      exact .inr ⟨p, h2, h3, (same_lessStable hS hT hT' h32 hr hp).1 h4⟩
  · rintro (⟨c, hc, h2, h3, h4⟩ | ⟨p, h2, h3, h4⟩)
    · exact .inl ⟨f c, hS.reg c hc, (same_parent hS hT hc hr).2 h2, by rw [hS.gray r hr, hS.gray c hc]; exact h3,
        (same_lessStable hS hT hT' h32 hr hc).2 h4⟩
    · have hp := (hT.parent r hr p h2).1
      exact .inr ⟨f p, (same_parent hS hT hr hp).2 h2, by rw [hS.gray r hr, hS.gray p hp]; exact h3,
        (same_lessStable hS hT hT' h32 hr hp).2 h4⟩

/-- Selected in one copy exactly if selected in the other. -/
theorem same_selected (hS : SameTree px T T' f) (hT : T.Ok) (hT' : T'.Ok) (h32 : Rounding cfg.r32) {r : ι}
    (hr : T.isReg r) : Selected T' (limits cfg) (f r) ↔ Selected T (limits cfg) r := by
  constructor
  · intro h
    refine ⟨hr, fun v hv => h.stable v ((same_stability hS hT hT' h32 hr).2 hv), ?_, ?_, ?_, fun h0 hs =>
      h.nms h0 ((same_suppressed hS hT hT' h32 hr).2 hs)⟩
    · rw [← hS.size r hr]; exact h.min
    · rw [← hS.size r hr]; exact h.max
    · have := h.parent; rw [hS.parent r hr, ne_eq, Option.map_eq_none_iff] at this; exact this
  · intro h
    refine ⟨hS.reg r hr, fun v hv => h.stable v ((same_stability hS hT hT' h32 hr).1 hv), ?_, ?_, ?_, fun h0 hs =>
      h.nms h0 ((same_suppressed hS hT hT' h32 hr).1 hs)⟩
    · rw [hS.size r hr]; exact h.min
    · rw [hS.size r hr]; exact h.max
    · rw [hS.parent r hr, ne_eq, Option.map_eq_none_iff]; exact h.parent

end Verif.Recog
