import Verif.Model.GridV1
import Verif.Proof.Grid
import Verif.Proof.FloodV1

/-!
# The patches of V1 meet the hypotheses of the flooding proof, in 4- and 8-neighbour mode
-/

namespace Verif.V1

open Verif.Flood (Patch gridPatch idx nb8 nb4 idx_inj divmod_unique gridPatch_gray mem_px)
open Verif.Spec (pixels mem_pixels Adj4 Adj8 LConn IsComponentTree)
open Relation (ReflTransGen)

/-- Adjacency in the two modes. -/
def AdjV1 (eight : Bool) (w h : Nat) : Nat × Nat → Nat × Nat → Prop := if eight then Adj8 w h else Adj4 w h

variable {eight : Bool} {w h : Nat} {img : Nat → Nat → Nat} {gm : Nat}

theorem adj48 {p q : Nat × Nat} (h4 : Adj4 w h p q) : AdjV1 eight w h p q := by
  cases eight with
  | false => exact h4
  | true =>
    obtain ⟨h1, h2, h3⟩ := h4
    refine ⟨h1, h2, ?_, ?_⟩
    · rintro rfl; omega
    · omega

theorem adjV1_symm (p q : Nat × Nat) (ha : AdjV1 eight w h p q) : AdjV1 eight w h q p := by
  cases eight with
  | false => obtain ⟨h1, h2, h3⟩ := ha; exact ⟨h2, h1, by omega⟩
  | true => obtain ⟨h1, h2, h3, h4⟩ := ha; exact ⟨h2, h1, h3.symm, by omega⟩

theorem adjV1_mem (p q : Nat × Nat) (ha : AdjV1 eight w h p q) : p ∈ pixels w h ∧ q ∈ pixels w h := by
  cases eight with
  | false => exact ⟨ha.1, ha.2.1⟩
  | true => exact ⟨ha.1, ha.2.1⟩

theorem nb8_idx {x y x' y' k : Nat} (hx : x < w) (hx' : x' < w) (h1 : 1 ≤ k) (h8 : k ≤ 8) :
    nb8 w (idx w x y) k = idx w x' y' ↔
      (k = 1 ∧ x' = x + 1 ∧ y' = y) ∨ (k = 2 ∧ x' = x + 1 ∧ y = y' + 1) ∨ (k = 3 ∧ x' = x ∧ y = y' + 1) ∨
      (k = 4 ∧ x = x' + 1 ∧ y = y' + 1) ∨ (k = 5 ∧ x = x' + 1 ∧ y' = y) ∨ (k = 6 ∧ x = x' + 1 ∧ y' = y + 1) ∨
      (k = 7 ∧ x' = x ∧ y' = y + 1) ∨ (k = 8 ∧ x' = x + 1 ∧ y' = y + 1) := by
  have hk : k = 1 ∨ k = 2 ∨ k = 3 ∨ k = 4 ∨ k = 5 ∨ k = 6 ∨ k = 7 ∨ k = 8 := by omega
  have e0 : (y + 1) * (w + 2) = y * (w + 2) + (w + 2) := Nat.succ_mul _ _
  have e2 : (y + 1 + 1) * (w + 2) = y * (w + 2) + (w + 2) + (w + 2) := by rw [Nat.succ_mul, e0]
  have key : ∀ a b : Nat, b < w + 2 → (a * (w + 2) + b = idx w x' y' ↔ a = y' + 1 ∧ b = x' + 1) := by
    intro a b hb
    constructor
    · intro e; exact divmod_unique hb (by omega) e
    · rintro ⟨rfl, rfl⟩; rfl
  rcases hk with rfl | rfl | rfl | rfl | rfl | rfl | rfl | rfl
  · rw [show nb8 w (idx w x y) 1 = (y + 1) * (w + 2) + (x + 2) by simp only [nb8, idx]; omega, key _ _ (by omega)]; omega
  · rw [show nb8 w (idx w x y) 2 = y * (w + 2) + (x + 2) by simp only [nb8, idx]; omega, key _ _ (by omega)]; omega
  · rw [show nb8 w (idx w x y) 3 = y * (w + 2) + (x + 1) by simp only [nb8, idx]; omega, key _ _ (by omega)]; omega
  · rw [show nb8 w (idx w x y) 4 = y * (w + 2) + x by simp only [nb8, idx]; omega, key _ _ (by omega)]; omega
  · rw [show nb8 w (idx w x y) 5 = (y + 1) * (w + 2) + x by simp only [nb8, idx]; omega, key _ _ (by omega)]; omega
  · rw [show nb8 w (idx w x y) 6 = (y + 1 + 1) * (w + 2) + x by simp only [nb8, idx]; omega, key _ _ (by omega)]; omega
  · rw [show nb8 w (idx w x y) 7 = (y + 1 + 1) * (w + 2) + (x + 1) by simp only [nb8, idx]; omega, key _ _ (by omega)]; omega
  · rw [show nb8 w (idx w x y) 8 = (y + 1 + 1) * (w + 2) + (x + 2) by simp only [nb8, idx]; omega, key _ _ (by omega)]; omega

theorem adj8_iff {p q : Nat × Nat} (hp : p ∈ pixels w h) (hq : q ∈ pixels w h) :
    (∃ k, 1 ≤ k ∧ k ≤ 8 ∧ nb8 w (idx w p.1 p.2) k = idx w q.1 q.2) ↔ Adj8 w h p q := by
  obtain ⟨x, y⟩ := p
  obtain ⟨x', y'⟩ := q
  rw [mem_pixels] at hp hq
  simp only at hp hq
  constructor
  · rintro ⟨k, k1, k2, k3⟩
    have := (nb8_idx hp.1 hq.1 k1 k2).1 k3
    refine ⟨mem_pixels.2 hp, mem_pixels.2 hq, ?_, ?_⟩
    · rw [Ne, Prod.mk.injEq]; omega
    · simp only; omega
  · rintro ⟨_, _, h1, h2⟩
    rw [Ne, Prod.mk.injEq] at h1
    simp only at h2
    have : ∃ k, 1 ≤ k ∧ k ≤ 8 ∧ ((k = 1 ∧ x' = x + 1 ∧ y' = y) ∨ (k = 2 ∧ x' = x + 1 ∧ y = y' + 1) ∨
        (k = 3 ∧ x' = x ∧ y = y' + 1) ∨ (k = 4 ∧ x = x' + 1 ∧ y = y' + 1) ∨ (k = 5 ∧ x = x' + 1 ∧ y' = y) ∨
        (k = 6 ∧ x = x' + 1 ∧ y' = y + 1) ∨ (k = 7 ∧ x' = x ∧ y' = y + 1) ∨ (k = 8 ∧ x' = x + 1 ∧ y' = y + 1)) := by
      have hxc : x' = x + 1 ∨ x' = x ∨ x = x' + 1 := by omega
      have hyc : y' = y + 1 ∨ y' = y ∨ y = y' + 1 := by omega
      rcases hxc with hx | hx | hx <;> rcases hyc with hy | hy | hy
      · exact ⟨8, by omega⟩
      · exact ⟨1, by omega⟩
      · exact ⟨2, by omega⟩
      · exact ⟨7, by omega⟩
      · omega
      · exact ⟨3, by omega⟩
      · exact ⟨6, by omega⟩
      · exact ⟨5, by omega⟩
      · exact ⟨4, by omega⟩
    obtain ⟨k, k1, k2, k3⟩ := this
    exact ⟨k, k1, k2, (nb8_idx hp.1 hq.1 k1 k2).2 k3⟩

theorem patchV1_px : (patchV1 eight w h img gm).px = (gridPatch w h img gm).px := rfl
theorem patchV1_gray : (patchV1 eight w h img gm).gray = (gridPatch w h img gm).gray := rfl
theorem patchV1_start : (patchV1 eight w h img gm).start = idx w 0 0 := by
  show 1 + (w + 2) = _; simp only [idx]; omega

theorem mem_pxV1 {i : Nat} : i ∈ (patchV1 eight w h img gm).px ↔ ∃ x y, x < w ∧ y < h ∧ i = idx w x y :=
  mem_px (img := img) (gm := gm)

theorem idx_mem {p : Nat × Nat} (hp : p ∈ pixels w h) : idx w p.1 p.2 ∈ (patchV1 eight w h img gm).px :=
  mem_pxV1.2 ⟨p.1, p.2, (mem_pixels.1 hp).1, (mem_pixels.1 hp).2, rfl⟩

theorem adjV1_iff {p q : Nat × Nat} (hp : p ∈ pixels w h) (hq : q ∈ pixels w h) :
    (patchV1 eight w h img gm).adj (idx w p.1 p.2) (idx w q.1 q.2) ↔ AdjV1 eight w h p q := by
  cases eight with
  | false => exact Flood.adj_iff hp hq
  | true =>
    show _ ↔ Adj8 w h p q
    rw [← adj8_iff hp hq]
    constructor
    · rintro ⟨_, _, k⟩; exact k
    · intro k; exact ⟨idx_mem hp, idx_mem hq, k⟩

theorem patchV1_ok9 (hw : 1 ≤ w) (hh : 1 ≤ h) (hg : ∀ x y, x < w → y < h → img x y ^^^ gm < 257) :
    (patchV1 eight w h img gm).OK where
  start_mem := mem_pxV1.2 ⟨0, 0, hw, hh, patchV1_start (img := img) (gm := gm) (eight := eight) (h := h)⟩
  gray_lt := (Flood.gridPatch_ok9 hw hh hg).gray_lt
  symm := by
    intro i hi k k1 k2 hk
    obtain ⟨x, y, hx, hy, rfl⟩ := mem_pxV1.1 hi
    obtain ⟨x', y', hx', hy', e⟩ := mem_pxV1.1 hk
    have hp : ((x, y) : Nat × Nat) ∈ pixels w h := mem_pixels.2 ⟨hx, hy⟩
    have hq : ((x', y') : Nat × Nat) ∈ pixels w h := mem_pixels.2 ⟨hx', hy'⟩
    have ha : (patchV1 eight w h img gm).adj (idx w x y) (idx w x' y') := ⟨hi, e ▸ hk, k, k1, k2, e⟩
    have hb := (adjV1_iff (eight := eight) (img := img) (gm := gm) hq hp).2
      (adjV1_symm _ _ ((adjV1_iff (eight := eight) (img := img) (gm := gm) hp hq).1 ha))
    rw [e]
    exact hb.2.2
  conn := by
    intro i hi
    have := (Flood.gridPatch_ok9 hw hh hg).conn i hi
    refine ReflTransGen.mono ?_ _ _ this
    rintro a b hab
    obtain ⟨x, y, hx, hy, rfl⟩ := mem_px.1 hab.1
    obtain ⟨x', y', hx', hy', rfl⟩ := mem_px.1 hab.2.1
    have hp : ((x, y) : Nat × Nat) ∈ pixels w h := mem_pixels.2 ⟨hx, hy⟩
    have hq : ((x', y') : Nat × Nat) ∈ pixels w h := mem_pixels.2 ⟨hx', hy'⟩
    exact (adjV1_iff hp hq).2 (adj48 ((Flood.adj_iff hp hq).1 hab))

theorem patchV1_ok (hw : 1 ≤ w) (hh : 1 ≤ h) (hg : ∀ x y, x < w → y < h → img x y < 256) (hm : gm < 256) :
    (patchV1 eight w h img gm).OK :=
  patchV1_ok9 hw hh fun x y hx hy => Nat.lt_succ_of_lt (Nat.xor_lt_two_pow (n := 8) (hg x y hx hy) hm)

/-- The same patch with a component stack of `cap` entries. -/
def patchCap (cap : Nat) (eight : Bool) (w h : Nat) (img : Nat → Nat → Nat) (gm : Nat) : Flood.Patch :=
  { patchV1 eight w h img gm with cap := cap }

theorem patchCap_ok {cap : Nat} (hw : 1 ≤ w) (hh : 1 ≤ h) (hg : ∀ x y, x < w → y < h → img x y ^^^ gm < 257) :
    (patchCap cap eight w h img gm).OK :=
  have h0 := patchV1_ok9 (eight := eight) hw hh hg
  ⟨h0.start_mem, h0.gray_lt, h0.symm, h0.conn⟩

theorem lconnV1 {l : Nat} {p q : Nat × Nat} (hp : p ∈ pixels w h) (hq : q ∈ pixels w h) :
    LConn (patchV1 eight w h img gm).adj (patchV1 eight w h img gm).gray l (idx w p.1 p.2) (idx w q.1 q.2)
      ↔ LConn (AdjV1 eight w h) (fun p => img p.1 p.2 ^^^ gm) l p q := by
  have hgr : ∀ p ∈ pixels w h, (patchV1 eight w h img gm).gray (idx w p.1 p.2) = img p.1 p.2 ^^^ gm :=
    fun p hp => gridPatch_gray (h := h) (mem_pixels.1 hp).1
  constructor
  · intro hc
    have : ∀ i j, LConn (patchV1 eight w h img gm).adj (patchV1 eight w h img gm).gray l i j →
        ∀ p ∈ pixels w h, i = idx w p.1 p.2 → ∀ q ∈ pixels w h, j = idx w q.1 q.2 →
        LConn (AdjV1 eight w h) (fun p => img p.1 p.2 ^^^ gm) l p q := by
      intro i j hij p hp hi
      induction hij with
      | refl =>
        intro q hq hj
        rw [mem_pixels] at hp hq
        obtain ⟨h1, h2⟩ := idx_inj hp.1.le hq.1.le (hi.symm.trans hj)
        obtain rfl : p = q := Prod.ext h1 h2
        exact .refl
      | @tail b c _ h1 ih =>
        intro q hq hj
        obtain ⟨hbm, hcm, _⟩ := h1.1
        obtain ⟨x, y, hx, hy, rfl⟩ := mem_pxV1.1 hbm
        have hm : (x, y) ∈ pixels w h := mem_pixels.2 ⟨hx, hy⟩
        have h2 := ih (x, y) hm rfl
        subst hj
        obtain ⟨ha, hg1, hg2⟩ := h1
        rw [hgr (x, y) hm] at hg1
        rw [hgr q hq] at hg2
        exact .tail h2 ⟨(adjV1_iff hm hq).1 ha, hg1, hg2⟩
    exact this _ _ hc p hp rfl q hq rfl
  · intro hc
    clear hq
    induction hc with
    | refl => exact .refl
    | @tail b c _ h1 ih =>
      obtain ⟨hb, hcm⟩ := adjV1_mem _ _ h1.1
      refine .tail ih ⟨(adjV1_iff hb hcm).2 h1.1, ?_, ?_⟩
      · rw [hgr b hb]; exact h1.2.1
      · rw [hgr c hcm]; exact h1.2.2

theorem treeV1 {s : Flood.St}
    (hT : IsComponentTree (patchV1 eight w h img gm).adj (patchV1 eight w h img gm).gray
      (patchV1 eight w h img gm).px (Flood.treeOf s)) :
    IsComponentTree (AdjV1 eight w h) (fun p => img p.1 p.2 ^^^ gm) (pixels w h) (Flood.gridTree w s) := by
  constructor
  · intro p hp; exact hT.lab_reg _ (idx_mem hp)
  · intro p hp
    rw [← gridPatch_gray (h := h) (mem_pixels.1 hp).1]; exact hT.lab_gray _ (idx_mem hp)
  · intro r hr
    obtain ⟨i, hi, h1⟩ := hT.reg_lab r hr
    obtain ⟨x, y, hx, hy, rfl⟩ := mem_pxV1.1 hi
    exact ⟨(x, y), mem_pixels.2 ⟨hx, hy⟩, h1⟩
  · exact hT.parent_reg
  · intro r hr p hp hu q hq
    rw [← lconnV1 hp hq]
    exact hT.comp r hr _ (idx_mem hp) hu _ (idx_mem hq)
  · intro r hr t ht
    have := hT.size_eq r hr (t.image (fun p => idx w p.1 p.2)) (by
      intro i
      rw [Finset.mem_image]
      constructor
      · rintro ⟨p, hp, rfl⟩
        obtain ⟨h1, h2⟩ := (ht p).1 hp
        exact ⟨idx_mem h1, h2⟩
      · rintro ⟨h1, h2⟩
        obtain ⟨x, y, hx, hy, rfl⟩ := mem_pxV1.1 h1
        exact ⟨(x, y), (ht _).2 ⟨mem_pixels.2 ⟨hx, hy⟩, h2⟩, rfl⟩)
    rw [Finset.card_image_of_injOn] at this
    · exact this
    · intro p hp q hq hpq
      have h1 := (mem_pixels.1 ((ht p).1 hp).1)
      have h2 := (mem_pixels.1 ((ht q).1 hq).1)
      obtain ⟨h3, h4⟩ := idx_inj h1.1.le h2.1.le hpq
      exact Prod.ext h3 h4

variable {left top : Nat} {joined : Nat → Bool}

theorem cell_idx {x y : Nat} (hx : x < w) :
    cellX (patchV1 eight w h img gm) (geoV1 w h left top joined) (idx w x y) = x ∧
    cellY (patchV1 eight w h img gm) (geoV1 w h left top joined) (idx w x y) = y := by
  have h1 : idx w x y - (patchV1 eight w h img gm).start = (w + 2) * y + x := by
    rw [patchV1_start]; simp only [idx]; rw [Nat.succ_mul, Nat.mul_comm]; omega
  have h2 : cellY (patchV1 eight w h img gm) (geoV1 w h left top joined) (idx w x y) = y := by
    unfold cellY; rw [h1]
    show ((w + 2) * y + x) / (w + 2) = y
    rw [Nat.mul_add_div (by omega), Nat.div_eq_of_lt (by omega)]; rfl
  refine ⟨?_, h2⟩
  unfold cellX
  rw [h2, h1]
  show (w + 2) * y + x - y * (w + 2) = x
  rw [Nat.mul_comm]; omega

theorem geoV1_ok : (geoV1 w h left top joined).OK (patchV1 eight w h img gm) := by
  intro i hi j hj h1 h2
  obtain ⟨x, y, hx, hy, rfl⟩ := mem_pxV1.1 hi
  obtain ⟨x', y', hx', hy', rfl⟩ := mem_pxV1.1 hj
  have a := cell_idx (eight := eight) (h := h) (img := img) (gm := gm) (left := left) (top := top) (joined := joined) (y := y) hx
  have b := cell_idx (eight := eight) (h := h) (img := img) (gm := gm) (left := left) (top := top) (joined := joined) (y := y') hx'
  rw [a.1, b.1] at h1
  rw [a.2, b.2] at h2
  rw [h1, h2]

end Verif.V1
