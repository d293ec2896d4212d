import Verif.Props.Linear
import Verif.Props.Whole
import Verif.Proof.LinearRecog

/-!
# Property C74: recognition of stable regions by the linear detector
-/

namespace Verif.Props

open Verif.Spec Verif.Recog
open Verif.Linear (Dim Mask Buf cellVal forestL)
open Verif.Connect (Forest Str forestTree)

variable {D : Dim} {b : Buf} {s : Linear.St} {src : Nat → Nat → Nat} {mask : Mask} {gm : Nat} {cfg : Cfg}
  {lab : Nat × Nat → Nat}

/-- The regions of a pass as a labelled tree, with the levels as stored. -/
def treeL (s : Linear.St) (lab : Nat × Nat → Nat) : RegionTree (Nat × Nat) Nat where
  isReg := fun r => r < s.nreg
  lab := lab
  gray := fun r => (forestL s.nreg s.regs r).gray
  parent := fun r => (forestL s.nreg s.regs r).parent
  size := fun r => (forestL s.nreg s.regs r).size

theorem forestL_reg {r : Nat} (hr : r < s.nreg) : forestL s.nreg s.regs r =
    { gray := (s.regs r).gray, parent := (s.regs r).parent, merged := false, size := (s.regs r).size } := by
  simp [forestL, hr]

/-- Two trees that agree on their regions. -/
theorem _root_.Verif.Spec.IsComponentTree.agree {α ι : Type} {adj : α → α → Prop} {f : α → Nat} {px : Finset α}
    {T T' : RegionTree α ι} (h : IsComponentTree adj f px T) (hreg : ∀ r, T'.isReg r ↔ T.isReg r)
    (hlab : ∀ p ∈ px, T'.lab p = T.lab p) (hgray : ∀ r, T.isReg r → T'.gray r = T.gray r)
    (hpar : ∀ r, T.isReg r → T'.parent r = T.parent r) (hsize : ∀ r, T.isReg r → T'.size r = T.size r) :
    IsComponentTree adj f px T' ∧ ∀ r, ∀ p ∈ px, T'.Under r p ↔ T.Under r p := by
  have hu1 : ∀ x y, T.isReg x → Relation.ReflTransGen (fun a b => T'.parent a = some b) x y →
      Relation.ReflTransGen (fun a b => T.parent a = some b) x y ∧ T.isReg y := by
    intro x y hx hxy
    induction hxy with
    | refl => exact ⟨.refl, hx⟩
    | tail _ hbc ih =>
      rw [hpar _ ih.2] at hbc
      exact ⟨ih.1.tail hbc, (h.parent_reg _ ih.2 _ hbc).1⟩
  have hu2 : ∀ x y, T.isReg x → Relation.ReflTransGen (fun a b => T.parent a = some b) x y →
      Relation.ReflTransGen (fun a b => T'.parent a = some b) x y ∧ T.isReg y := by
    intro x y hx hxy
    induction hxy with
    | refl => exact ⟨.refl, hx⟩
    | tail _ hbc ih => exact ⟨ih.1.tail (by rw [hpar _ ih.2]; exact hbc), (h.parent_reg _ ih.2 _ hbc).1⟩
  have hu : ∀ r, ∀ p ∈ px, T'.Under r p ↔ T.Under r p := by
    intro r p hp
    unfold RegionTree.Under
    rw [hlab p hp]
    exact ⟨fun e => (hu1 _ _ (h.lab_reg p hp) e).1, fun e => (hu2 _ _ (h.lab_reg p hp) e).1⟩
  refine ⟨⟨?_, ?_, ?_, ?_, ?_, ?_⟩, hu⟩
  · intro p hp; rw [hlab p hp, hreg]; exact h.lab_reg p hp
  · intro p hp; rw [hlab p hp, hgray _ (h.lab_reg p hp)]; exact h.lab_gray p hp
  · intro r hr
    obtain ⟨p, hp, e⟩ := h.reg_lab r ((hreg r).1 hr)
    exact ⟨p, hp, (hlab p hp).trans e⟩
  · intro r hr r' e
    have hr := (hreg r).1 hr
    rw [hpar r hr] at e
    obtain ⟨h1, h2⟩ := h.parent_reg r hr r' e
    rw [hreg, hgray r hr, hgray r' h1]
    exact ⟨h1, h2⟩
  · intro r hr p hp hup q hq
    have hr := (hreg r).1 hr
    rw [hu r q hq, hgray r hr]
    exact h.comp r hr p hp ((hu r p hp).1 hup) q hq
  · intro r hr S hS
    have hr := (hreg r).1 hr
    rw [hsize r hr]
    refine h.size_eq r hr S fun p => ?_
    rw [hS]
    exact and_congr_right fun hp => hu r p hp

/-- Only the values at the pixels matter. -/
theorem _root_.Verif.Spec.IsComponentTree.values {α ι : Type} {adj : α → α → Prop} {f f' : α → Nat} {px : Finset α}
    {T : RegionTree α ι} (h : IsComponentTree adj f px T) (hf : ∀ p ∈ px, f' p = f p)
    (hadj : ∀ p q, adj p q → p ∈ px ∧ q ∈ px) : IsComponentTree adj f' px T := by
  have e : ∀ l p q, LConn adj f' l p q ↔ LConn adj f l p q := by
    intro l p q
    have : (fun a b => adj a b ∧ f' a ≤ l ∧ f' b ≤ l) = fun a b => adj a b ∧ f a ≤ l ∧ f b ≤ l := by
      funext a b
      refine propext (and_congr_right fun hab => ?_)
      rw [hf a (hadj a b hab).1, hf b (hadj a b hab).2]
    unfold LConn
    rw [this]
  refine ⟨h.lab_reg, fun p hp => by rw [hf p hp]; exact h.lab_gray p hp, h.reg_lab, h.parent_reg, ?_, h.size_eq⟩
  intro r hr p hp hu q hq
  rw [e]; exact h.comp r hr p hp hu q hq

/-- No pixel is masked out. -/
def Unmasked (D : Dim) (mask : Mask) (gm : Nat) (src : Nat → Nat → Nat) : Prop :=
  ∀ x y, x < D.w → y < D.h → cellVal mask gm src x y < 256

theorem pixels_bytes (hU : Unmasked D mask gm src) : ∀ p ∈ pixels D.w D.h, cellVal mask gm src p.1 p.2 < 256 := by
  intro p hp
  rw [mem_pixels] at hp
  exact hU _ _ hp.1 hp.2

/-- The tree as it is stored, if no pixel is masked out. -/
theorem treeL_of {g : Nat → Nat} {L : Nat → List Nat} (hU : Unmasked D mask gm src)
    (hF : FloodedL D (cellVal mask gm src) s g lab L) :
    IsComponentTree (if D.eight then Adj8 D.w D.h else Adj4 D.w D.h) (fun p => cellVal mask gm src p.1 p.2)
      (pixels D.w D.h) (treeL s lab) ∧
    (∀ r, ∀ p ∈ pixels D.w D.h, (treeL s lab).Under r p ↔ (treeOfL s g lab).Under r p) ∧
    ∀ r < s.nreg, (s.regs r).gray = g r := by
  have hg : ∀ r < s.nreg, (s.regs r).gray = g r := by
    intro r hr
    rw [hF.gray r hr]
    refine Nat.mod_eq_of_lt ?_
    obtain ⟨p, hp, e⟩ := hF.tree.reg_lab r hr
    have h1 := hF.tree.lab_gray p hp
    rw [e] at h1
    have h2 : g r = cellVal mask gm src p.1 p.2 := h1
    rw [h2]; exact pixels_bytes hU p hp
  obtain ⟨h1, h2⟩ := hF.tree.agree (T' := treeL s lab) (fun r => Iff.rfl) (fun p _ => rfl)
    (fun r hr => by
      show (forestL s.nreg s.regs r).gray = g r
      rw [forestL_reg hr, ← hg r hr])
    (fun r hr => by
      show (forestL s.nreg s.regs r).parent = (s.regs r).parent
      rw [forestL_reg hr])
    (fun r hr => by
      show (forestL s.nreg s.regs r).size = (s.regs r).size
      rw [forestL_reg hr])
  exact ⟨h1, h2, hg⟩

theorem chase_live {F : Forest Nat} (hF : ∀ r, (F r).merged = false) (k : Nat) (o : Option Nat) :
    Connect.chase F k o = some o := by
  cases o with
  | none => simp [Connect.chase]
  | some r => cases k <;> simp [Connect.chase, hF r]

/-- Recognition after flooding. -/
theorem recogL {g : Nat → Nat} {L : Nat → List Nat} (hU : Unmasked D mask gm src)
    (hF : FloodedL D (cellVal mask gm src) s g lab L) (hc : D.w * D.h < 2 ^ 31) (var : Nat → ℚ)
    (h64 : Rounding cfg.r64) :
    ∃ out, Linear.recognize cfg D s var = some out ∧
      Outcome (treeOf (treeL s lab) (treeL s lab).isReg 0) cfg (decide (0 < cfg.delta)) (List.range s.nreg) out := by
  classical
  obtain ⟨hT, _, _⟩ := treeL_of hU hF
  have hok := hT.ok (pixels_bytes hU)
  have hm : ∀ r, (forestL s.nreg s.regs r).merged = false := by
    intro r; unfold forestL; split <;> rfl
  have hnone : ∀ r, ¬ r < s.nreg → (forestL s.nreg s.regs r).parent = none := by
    intro r hr; simp [forestL, hr]
  have hS : Str (fun r => r < s.nreg) (treeL s lab).gray (forestL s.nreg s.regs) 0 := by
    refine ⟨fun _ => rfl, hok.gray_lt, fun r hr r' e => (hok.parent r hr r' e).1, ?_, fun r hr _ r' e => (hok.parent r hr r' e).2.1, ?_, ?_⟩
    · intro r r' e
      by_contra hn
      rw [hnone r hn] at e; simp at e
    · intro r _ e; rw [hm] at e; simp at e
    · intro r _; exact ⟨0, le_refl _, r, hm r, rfl⟩
  have hR : Shows (treeOf (treeL s lab) (fun r => r < s.nreg) 0) (ofForest (forestL s.nreg s.regs) var) := by
    have h1 := shows_forest (lab := lab) hS (le_refl 0) var
    have e : treeOf (forestTree 0 (fun r => r < s.nreg) lab (forestL s.nreg s.regs)) (fun r => r < s.nreg) 0
        = treeOf (treeL s lab) (fun r => r < s.nreg) 0 := by
      simp only [treeOf, forestTree, treeL, chase_live hm, Option.getD_some, hm, and_true]
    rwa [e] at h1
  have hcard : (pixels D.w D.h).card = D.w * D.h := by simp [pixels]
  have hsz : ∀ r, (treeL s lab).isReg r → (treeL s lab).size r < 2 ^ 31 := by
    intro r hr
    rw [hT.size_card hr]
    have := Finset.card_filter_le (pixels D.w D.h) (fun p => (treeL s lab).Under r p)
    omega
  have hlen : (List.range s.nreg).length ≤ D.hsize := by
    rw [List.length_range]
    have := hF.nreg_le
    unfold Linear.Dim.hsize; omega
  obtain ⟨out, e, hO⟩ := Linear.recognizeL_spec (cfg := cfg) (treeOf_ok (m := 0) hok (fun _ => id)) h64 hsz
    List.nodup_range (fun r hr => List.mem_range.1 hr) (fun r hr => List.mem_range.2 hr) hR
    (fun r => ⟨by simp [ofForest, hm], rfl⟩) hlen
  refine ⟨out, ?_, hO⟩
  unfold Linear.recognize
  rw [if_pos, e]
  intro r hr p hp
  exact (hF.tree.parent_reg r hr p hp).1

/-- Recognition after flooding, in terms of the specification. -/
theorem result_linear {g : Nat → Nat} {L : Nat → List Nat} (hU : Unmasked D mask gm src)
    (hF : FloodedL D (cellVal mask gm src) s g lab L) (hc : D.w * D.h < 2 ^ 31) (var : Nat → ℚ)
    (h32 : Rounding cfg.r32) (h64 : Rounding cfg.r64) (hst : -1 ≤ cfg.stable) (hd : 1 ≤ cfg.delta) :
    ∃ out arr gs, Linear.recognize cfg D s var = some out ∧
      Result (treeL s lab) cfg (Selected (treeL s lab) (limits cfg)) out arr gs := by
  obtain ⟨hT, _, _⟩ := treeL_of hU hF
  have hok := hT.ok (pixels_bytes hU)
  obtain ⟨out, e, hO⟩ := recogL hU hF hc var h64
  rw [decide_eq_true (by omega : 0 < cfg.delta)] at hO
  obtain ⟨arr, gs, hr⟩ := result_of (treeOf_ok (m := 0) hok (fun _ => id)) hO
  have : (fun r => (treeL s lab).isReg r ∧ ¬ finalBad (treeOf (treeL s lab) (treeL s lab).isReg 0) cfg true r)
      = Selected (treeL s lab) (limits cfg) :=
    funext fun r => propext (selected_iff hok (fun _ => id) h32 hst)
  rw [this] at hr
  exact ⟨out, arr, gs, e, hr⟩

/-! ### C74 -/

/-- **C74** The linear detector, `delta` at least 1, no pixel masked out: recognition ends, the candidates are the
selected regions of the component tree of the image, and what is reported is one region of every group of nested
nearly equal candidates; for every duplicate threshold. -/
theorem C74_recognition_linear (hI : BytesOK D src) (h0 : b.top 0 = 0) (hU : Unmasked D mask gm src)
    (hc : D.w * D.h < 2 ^ 31) (var : Nat → ℚ) (h32 : Rounding cfg.r32) (h64 : Rounding cfg.r64)
    (hst : -1 ≤ cfg.stable) (hd : 1 ≤ cfg.delta) :
    ∃ s lab out arr gs, Linear.buildTree D mask gm src b = .done s ∧
      IsComponentTree (if D.eight then Adj8 D.w D.h else Adj4 D.w D.h) (fun p => cellVal mask gm src p.1 p.2)
        (pixels D.w D.h) (treeL s lab) ∧
      Linear.recognize cfg D s var = some out ∧
      Result (treeL s lab) cfg (Selected (treeL s lab) (limits cfg)) out arr gs := by
  obtain ⟨s, g, lab, L, h1, hF⟩ := floodedL (mask := mask) (gm := gm) hI h0
  obtain ⟨out, arr, gs, e, hr⟩ := result_linear hU hF hc var h32 h64 hst hd
  exact ⟨s, lab, out, arr, gs, h1, (treeL_of hU hF).1, e, hr⟩

/-- **C74** With `delta` not positive the candidates are all regions within the size limits. -/
theorem C74_recognition_linear_no_delta (hI : BytesOK D src) (h0 : b.top 0 = 0) (hU : Unmasked D mask gm src)
    (hc : D.w * D.h < 2 ^ 31) (var : Nat → ℚ) (h64 : Rounding cfg.r64) (hd : cfg.delta ≤ 0) :
    ∃ s lab out arr gs, Linear.buildTree D mask gm src b = .done s ∧
      IsComponentTree (if D.eight then Adj8 D.w D.h else Adj4 D.w D.h) (fun p => cellVal mask gm src p.1 p.2)
        (pixels D.w D.h) (treeL s lab) ∧
      Linear.recognize cfg D s var = some out ∧
      Result (treeL s lab) cfg (WithinLimits (treeL s lab) (limits cfg)) out arr gs := by
  obtain ⟨s, g, lab, L, h1, hF⟩ := floodedL (mask := mask) (gm := gm) hI h0
  obtain ⟨hT, _, _⟩ := treeL_of hU hF
  have hok := hT.ok (pixels_bytes hU)
  obtain ⟨out, e, hO⟩ := recogL hU hF hc var h64
  rw [decide_eq_false (by omega : ¬ 0 < cfg.delta)] at hO
  obtain ⟨arr, gs, hr⟩ := result_of (treeOf_ok (m := 0) hok (fun _ => id)) hO
  have : (fun r => (treeL s lab).isReg r ∧ ¬ finalBad (treeOf (treeL s lab) (treeL s lab).isReg 0) cfg false r)
      = WithinLimits (treeL s lab) (limits cfg) := by
    funext r
    refine propext (and_congr_right fun _ => ?_)
    simp only [finalBad, pass1, Bool.false_eq_true, false_and, or_false, not_not, false_implies, true_and]
    rfl
  rw [this] at hr
  exact ⟨s, lab, out, arr, gs, h1, hT, e, hr⟩

example : BytesOK dimS sampleImg ∧ bufS.top 0 = 0 ∧ Unmasked dimS .null 0 sampleImg ∧ dimS.w * dimS.h < 2 ^ 31 ∧
    Rounding sampleCfg.r32 ∧ Rounding sampleCfg.r64 ∧ -1 ≤ sampleCfg.stable ∧ 1 ≤ sampleCfg.delta :=
  ⟨bytesS, rfl, fun x y hx hy => by simpa [cellVal] using bytesS.src_lt x y hx hy, by decide, rounding_id, rounding_id,
    by norm_num [sampleCfg], by decide⟩

end Verif.Props
