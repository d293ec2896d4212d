import Verif.Props.Ms
import Verif.Proof.MsRecog

/-!
# Property C87: recognition of stable regions by the ms detector
-/

namespace Verif.Props

open Verif.Spec Verif.Recog
open Verif.Flood (idx)
open Verif.FloodMem (MSt labelOf)
open Verif.Ms (forestM)
open Verif.Connect (Forest Str forestTree)

variable {w h : Nat} {img : Nat → Nat → Nat} {gm : Nat} {ms : MSt}

/-- Regions of a pass as a labelled tree. -/
def treeN (nreg : Nat) (regs : Nat → Flood.Reg) (lab : Nat × Nat → Nat) : RegionTree (Nat × Nat) Nat where
  isReg := fun r => r < nreg
  lab := lab
  gray := fun r => (forestM nreg regs r).gray
  parent := fun r => (forestM nreg regs r).parent
  size := fun r => (forestM nreg regs r).size

/-- The regions of a pass as a labelled tree; the label of a pixel is read from its word. -/
def treeM (w : Nat) (ms : MSt) : RegionTree (Nat × Nat) Nat :=
  treeN ms.nreg ms.regs (fun p => labelOf ms.words (idx w p.1 p.2))

theorem forestM_reg {nreg : Nat} {regs : Nat → Flood.Reg} {r : Nat} (hr : r < nreg) : forestM nreg regs r =
    { gray := (regs r).gray, parent := (regs r).parent, merged := false, size := (regs r).size } := by
  simp [forestM, hr]

theorem treeM_of {f : Nat × Nat → Nat} (hT : IsComponentTree (Adj4 w h) f (pixels w h) (memTree w ms)) :
    IsComponentTree (Adj4 w h) f (pixels w h) (treeM w ms) :=
  (hT.agree (T' := treeM w ms) (fun _ => Iff.rfl) (fun _ _ => rfl)
    (fun r hr => by show (forestM ms.nreg ms.regs r).gray = _; rw [forestM_reg hr]; rfl)
    (fun r hr => by show (forestM ms.nreg ms.regs r).parent = _; rw [forestM_reg hr]; rfl)
    (fun r hr => by show (forestM ms.nreg ms.regs r).size = _; rw [forestM_reg hr]; rfl)).1

/-- Recognition after flooding. -/
theorem recogN {cfg : Cfg} {nreg : Nat} {regs : Nat → Flood.Reg} {lab : Nat × Nat → Nat} {f : Nat × Nat → Nat} (hT : IsComponentTree (Adj4 w h) f (pixels w h) (treeN nreg regs lab))
    (hf : ∀ p ∈ pixels w h, f p < 256) (hc : w * h < 2 ^ 31) (var : Nat → ℚ) (msize exceed : Nat)
    (h64 : Rounding cfg.r64) :
    ∃ out, Ms.recognize cfg nreg regs var msize exceed = some out ∧
      Outcome (treeOf (treeN nreg regs lab) (treeN nreg regs lab).isReg 0) cfg (decide (0 < cfg.delta)) (List.range nreg) out := by
  classical
  have hok := hT.ok hf
  have hm : ∀ r, (forestM nreg regs r).merged = false := by
    intro r; unfold forestM; split <;> rfl
  have hnone : ∀ r, ¬ r < nreg → (forestM nreg regs r).parent = none := by
    intro r hr; simp [forestM, hr]
  have hS : Str (fun r => r < nreg) (treeN nreg regs lab).gray (forestM nreg regs) 0 := by
    refine ⟨fun _ => rfl, hok.gray_lt, fun r hr r' e => (hok.parent r hr r' e).1, ?_, fun r hr _ r' e => (hok.parent r hr r' e).2.1, ?_, ?_⟩
    · intro r r' e
      by_contra hn
      rw [hnone r hn] at e; simp at e
    · intro r _ e; rw [hm] at e; simp at e
    · intro r _; exact ⟨0, le_refl _, r, hm r, rfl⟩
  have hR : Shows (treeOf (treeN nreg regs lab) (fun r => r < nreg) 0) (ofForest (forestM nreg regs) var) := by
    have h1 := shows_forest (lab := (treeN nreg regs lab).lab) hS (le_refl 0) var
    have e : treeOf (forestTree 0 (fun r => r < nreg) (treeN nreg regs lab).lab (forestM nreg regs)) (fun r => r < nreg) 0
        = treeOf (treeN nreg regs lab) (fun r => r < nreg) 0 := by
      simp only [treeOf, forestTree, treeN, chase_live hm, Option.getD_some, hm, and_true]
    rwa [e] at h1
  have hcard : (pixels w h).card = w * h := by simp [pixels]
  have hsz : ∀ r, (treeN nreg regs lab).isReg r → (treeN nreg regs lab).size r < 2 ^ 31 := by
    intro r hr
    rw [hT.size_card hr]
    have := Finset.card_filter_le (pixels w h) (fun p => (treeN nreg regs lab).Under r p)
    omega
  obtain ⟨out, e, hO⟩ := Linear.recognizeM_spec (cfg := cfg) (treeOf_ok (m := 0) hok (fun _ => id)) h64 hsz
    List.nodup_range (fun r hr => List.mem_range.1 hr) (fun r hr => List.mem_range.2 hr) hR
    (fun r => ⟨by simp [ofForest, hm], rfl⟩) msize exceed
  refine ⟨out, ?_, hO⟩
  unfold Ms.recognize
  rw [if_pos, e]
  intro r hr p hp
  refine (hT.parent_reg r hr p ?_).1
  show (forestM nreg regs r).parent = _
  rw [forestM_reg hr]; exact hp

theorem recogM {cfg : Cfg} {f : Nat × Nat → Nat} (hT : IsComponentTree (Adj4 w h) f (pixels w h) (treeM w ms))
    (hf : ∀ p ∈ pixels w h, f p < 256) (hc : w * h < 2 ^ 31) (var : Nat → ℚ) (msize exceed : Nat)
    (h64 : Rounding cfg.r64) :
    ∃ out, Ms.recognize cfg ms.nreg ms.regs var msize exceed = some out ∧
      Outcome (treeOf (treeM w ms) (treeM w ms).isReg 0) cfg (decide (0 < cfg.delta)) (List.range ms.nreg) out :=
  recogN hT hf hc var msize exceed h64

/-- Recognition after flooding, in terms of the specification. -/
theorem result_ms {cfg : Cfg} {f : Nat × Nat → Nat} (hT : IsComponentTree (Adj4 w h) f (pixels w h) (treeM w ms))
    (hf : ∀ p ∈ pixels w h, f p < 256) (hc : w * h < 2 ^ 31) (var : Nat → ℚ) (msize exceed : Nat)
    (h32 : Rounding cfg.r32) (h64 : Rounding cfg.r64) (hst : -1 ≤ cfg.stable) (hd : 1 ≤ cfg.delta) :
    ∃ out arr gs, Ms.recognize cfg ms.nreg ms.regs var msize exceed = some out ∧
      Result (treeM w ms) cfg (Selected (treeM w ms) (limits cfg)) out arr gs := by
  have hok := hT.ok hf
  obtain ⟨out, e, hO⟩ := recogM hT hf hc var msize exceed h64
  rw [decide_eq_true (by omega : 0 < cfg.delta)] at hO
  obtain ⟨arr, gs, hr⟩ := result_of (treeOf_ok (m := 0) hok (fun _ => id)) hO
  have : (fun r => (treeM w ms).isReg r ∧ ¬ finalBad (treeOf (treeM w ms) (treeM w ms).isReg 0) cfg true r)
      = Selected (treeM w ms) (limits cfg) :=
    funext fun r => propext (selected_iff hok (fun _ => id) h32 hst)
  rw [this] at hr
  exact ⟨out, arr, gs, e, hr⟩

/-- **C87** The ms detector, `delta` at least 1: after flooding, recognition ends – whatever the sizes of the array of a
previous image are – the candidates are the selected regions of the component tree, and what is reported is one region
of every group of nested nearly equal candidates; for every duplicate threshold. -/
theorem C87_recognition_ms {cfg : Cfg} {f : Nat × Nat → Nat} (hT : IsComponentTree (Adj4 w h) f (pixels w h) (memTree w ms))
    (hf : ∀ p ∈ pixels w h, f p < 256) (hc : w * h < 2 ^ 31) (var : Nat → ℚ) (msize exceed : Nat)
    (h32 : Rounding cfg.r32) (h64 : Rounding cfg.r64) (hst : -1 ≤ cfg.stable) (hd : 1 ≤ cfg.delta) :
    IsComponentTree (Adj4 w h) f (pixels w h) (treeM w ms) ∧
    ∃ out arr gs, Ms.recognize cfg ms.nreg ms.regs var msize exceed = some out ∧
      Result (treeM w ms) cfg (Selected (treeM w ms) (limits cfg)) out arr gs :=
  ⟨treeM_of hT, result_ms (treeM_of hT) hf hc var msize exceed h32 h64 hst hd⟩

/-- **C87** With `delta` not positive the candidates are all regions within the size limits. -/
theorem C87_recognition_ms_no_delta {cfg : Cfg} {f : Nat × Nat → Nat}
    (hT : IsComponentTree (Adj4 w h) f (pixels w h) (memTree w ms)) (hf : ∀ p ∈ pixels w h, f p < 256)
    (hc : w * h < 2 ^ 31) (var : Nat → ℚ) (msize exceed : Nat) (h64 : Rounding cfg.r64) (hd : cfg.delta ≤ 0) :
    ∃ out arr gs, Ms.recognize cfg ms.nreg ms.regs var msize exceed = some out ∧
      Result (treeM w ms) cfg (WithinLimits (treeM w ms) (limits cfg)) out arr gs := by
  have hT' := treeM_of hT
  have hok := hT'.ok hf
  obtain ⟨out, e, hO⟩ := recogM hT' hf hc var msize exceed h64
  rw [decide_eq_false (by omega : ¬ 0 < cfg.delta)] at hO
  obtain ⟨arr, gs, hr⟩ := result_of (treeOf_ok (m := 0) hok (fun _ => id)) hO
  have : (fun r => (treeM w ms).isReg r ∧ ¬ finalBad (treeOf (treeM w ms) (treeM w ms).isReg 0) cfg false r)
      = WithinLimits (treeM w ms) (limits cfg) := by
    funext r
    refine propext (and_congr_right fun _ => ?_)
    simp only [finalBad, pass1, Bool.false_eq_true, false_and, or_false, not_not, false_implies, true_and]
    rfl
  rw [this] at hr
  exact ⟨out, arr, gs, e, hr⟩

/-- Flooding supplies the hypotheses of the two theorems. -/
example : ∃ ms, IsComponentTree (Adj4 3 2) (fun p => sampleImg p.1 p.2) (pixels 3 2) (memTree 3 ms) ∧
    (∀ p ∈ pixels 3 2, sampleImg p.1 p.2 < 256) ∧ 3 * 2 < 2 ^ 31 ∧ Rounding sampleCfg.r32 ∧ Rounding sampleCfg.r64 ∧
    -1 ≤ sampleCfg.stable ∧ 1 ≤ sampleCfg.delta := by
  have hI : ImageOK 3 2 sampleImg 0 :=
    ⟨by decide, by decide, fun x y _ _ => by unfold sampleImg; split <;> [skip; split] <;> decide, by decide⟩
  obtain ⟨m1, _, h1⟩ := C86_dark_partial (b := emptyBuf) (ls := fun _ => 0) (fromMin := true) hI (by decide) rfl (by decide)
  exact ⟨m1, h1, fun p hp => hI.img_lt _ _ (mem_pixels.1 hp).1 (mem_pixels.1 hp).2, by decide, rounding_id, rounding_id,
    by norm_num [sampleCfg], by decide⟩

end Verif.Props
