import Verif.Model.Grid
import Verif.Spec.Image
import Verif.Proof.FloodRun
import Mathlib.Tactic.Ring

/-!
# The padded grid meets the hypotheses of the flooding proof
-/

namespace Verif.Flood

open Verif.Spec (pixels mem_pixels Adj4 LConn IsComponentTree)
open Relation (ReflTransGen)

theorem divmod_unique {n a b c d : Nat} (hb : b < n) (hd : d < n) (h : a * n + b = c * n + d) :
    a = c ∧ b = d := by
  have h1 : (a * n + b) % n = b := by rw [Nat.mul_comm, Nat.mul_add_mod, Nat.mod_eq_of_lt hb]
  have h2 : (c * n + d) % n = d := by rw [Nat.mul_comm, Nat.mul_add_mod, Nat.mod_eq_of_lt hd]
  have h3 : b = d := by rw [← h1, h, h2]
  subst h3
  have h4 : a * n = c * n := by omega
  exact ⟨Nat.eq_of_mul_eq_mul_right (by omega) h4, rfl⟩

theorem idx_inj {w x y x' y' : Nat} (hx : x ≤ w) (hx' : x' ≤ w) (h : idx w x y = idx w x' y') :
    x = x' ∧ y = y' := by
  unfold idx at h
  have := divmod_unique (by omega) (by omega) h
  omega

theorem idx_mod {w x y : Nat} (hx : x < w) : idx w x y % (w + 2) = x + 1 := by
  unfold idx; rw [Nat.mul_comm, Nat.mul_add_mod, Nat.mod_eq_of_lt (by omega)]

theorem idx_div {w x y : Nat} (hx : x < w) : idx w x y / (w + 2) = y + 1 := by
  unfold idx
  rw [Nat.mul_comm, Nat.mul_add_div (by omega), Nat.div_eq_of_lt (by omega)]

theorem gridPatch_gray {w h : Nat} {img : Nat → Nat → Nat} {gm x y : Nat} (hx : x < w) :
    (gridPatch w h img gm).gray (idx w x y) = img x y ^^^ gm := by
  simp [gridPatch, idx_mod hx, idx_div hx]

theorem mem_px {w h : Nat} {img : Nat → Nat → Nat} {gm i : Nat} :
    i ∈ (gridPatch w h img gm).px ↔ ∃ x y, x < w ∧ y < h ∧ i = idx w x y := by
  simp only [gridPatch, Finset.mem_image, Finset.mem_product, Finset.mem_range, Prod.exists]
  constructor
  · rintro ⟨x, y, ⟨h1, h2⟩, rfl⟩; exact ⟨x, y, h1, h2, rfl⟩
  · rintro ⟨x, y, h1, h2, rfl⟩; exact ⟨x, y, ⟨h1, h2⟩, rfl⟩

theorem nb4_idx {w x y x' y' k : Nat} (hx : x < w) (hx' : x' < w) (h1 : 1 ≤ k) (h4 : k ≤ 4) :
    nb4 w (idx w x y) k = idx w x' y' ↔
      (k = 1 ∧ y' = y ∧ x' = x + 1) ∨ (k = 2 ∧ x' = x ∧ y = y' + 1) ∨
      (k = 3 ∧ y' = y ∧ x = x' + 1) ∨ (k = 4 ∧ x' = x ∧ y' = y + 1) := by
  have hk : k = 1 ∨ k = 2 ∨ k = 3 ∨ k = 4 := by omega
  rcases hk with rfl | rfl | rfl | rfl
  · have e : nb4 w (idx w x y) 1 = idx w (x + 1) y := by simp only [nb4, idx]; omega
    rw [e]
    constructor
    · intro h; have := idx_inj (by omega) (by omega) h; omega
    · rintro (⟨_, rfl, rfl⟩ | h | h | h)
      · rfl
      all_goals omega
  · have e : nb4 w (idx w x y) 2 = y * (w + 2) + (x + 1) := by
      simp only [nb4, idx]; rw [Nat.succ_mul]; omega
    rw [e]; unfold idx
    constructor
    · intro h; have := divmod_unique (by omega) (by omega) h; omega
    · rintro (h | ⟨_, rfl, rfl⟩ | h | h)
      any_goals omega
  · have e : nb4 w (idx w x y) 3 = (y + 1) * (w + 2) + x := by
      simp only [nb4, idx]; omega
    rw [e]; unfold idx
    constructor
    · intro h; have := divmod_unique (by omega) (by omega) h; omega
    · rintro (h | h | ⟨_, rfl, rfl⟩ | h)
      any_goals omega
      
  · have e : nb4 w (idx w x y) 4 = idx w x (y + 1) := by
      simp only [nb4, idx]; rw [Nat.succ_mul (y + 1)]; omega
    rw [e]
    constructor
    · intro h; have := idx_inj (by omega) (by omega) h; omega
    · rintro (h | h | h | ⟨_, rfl, rfl⟩)
      · omega
      · omega
      · omega
      · rfl

theorem adj_iff {w h : Nat} {img : Nat → Nat → Nat} {gm : Nat} {p q : Nat × Nat}
    (hp : p ∈ pixels w h) (hq : q ∈ pixels w h) :
    (gridPatch w h img gm).adj (idx w p.1 p.2) (idx w q.1 q.2) ↔ Adj4 w h p q := by
  obtain ⟨x, y⟩ := p
  obtain ⟨x', y'⟩ := q
  rw [mem_pixels] at hp hq
  simp only at hp hq
  constructor
  · rintro ⟨_, _, k, k1, k2, k3⟩
    have := (nb4_idx hp.1 hq.1 k1 k2).1 k3
    refine ⟨mem_pixels.2 hp, mem_pixels.2 hq, ?_⟩
    simp only; omega
  · rintro ⟨_, _, h1⟩
    refine ⟨mem_px.2 ⟨x, y, hp.1, hp.2, rfl⟩, mem_px.2 ⟨x', y', hq.1, hq.2, rfl⟩, ?_⟩
    simp only at h1
    show ∃ k, 1 ≤ k ∧ k ≤ 4 ∧ nb4 w (idx w x y) k = idx w x' y'
    have : (y' = y ∧ x' = x + 1) ∨ (x' = x ∧ y = y' + 1) ∨ (y' = y ∧ x = x' + 1) ∨
      (x' = x ∧ y' = y + 1) := by omega
    rcases this with h2 | h2 | h2 | h2
    · exact ⟨1, by omega, by omega, (nb4_idx hp.1 hq.1 (by omega) (by omega)).2 (by simp [h2])⟩
    · exact ⟨2, by omega, by omega, (nb4_idx hp.1 hq.1 (by omega) (by omega)).2 (by simp [h2])⟩
    · exact ⟨3, by omega, by omega, (nb4_idx hp.1 hq.1 (by omega) (by omega)).2 (by simp [h2])⟩
    · exact ⟨4, by omega, by omega, (nb4_idx hp.1 hq.1 (by omega) (by omega)).2 (by simp [h2])⟩

/-- A patch of at least one pixel with values up to 256 meets the hypotheses. -/
theorem gridPatch_ok9 {w h : Nat} {img : Nat → Nat → Nat} {gm : Nat} (hw : 1 ≤ w) (hh : 1 ≤ h)
    (hg : ∀ x y, x < w → y < h → img x y ^^^ gm < 257) : (gridPatch w h img gm).OK where
  start_mem := mem_px.2 ⟨0, 0, hw, hh, by simp [gridPatch, idx]; omega⟩
  gray_lt := by
    intro i hi
    obtain ⟨x, y, hx, hy, rfl⟩ := mem_px.1 hi
    rw [gridPatch_gray hx]
    exact hg x y hx hy
  symm := by
    intro i hi k k1 k2 hk
    obtain ⟨x, y, hx, hy, rfl⟩ := mem_px.1 hi
    obtain ⟨x', y', hx', hy', e⟩ := mem_px.1 hk
    have h1 := (nb4_idx hx hx' k1 k2).1 e
    rw [e]
    show ∃ k', 1 ≤ k' ∧ k' ≤ 4 ∧ nb4 w (idx w x' y') k' = idx w x y
    rcases h1 with h2 | h2 | h2 | h2
    · exact ⟨3, by omega, by omega, (nb4_idx hx' hx (by omega) (by omega)).2 (by simp [h2])⟩
    · exact ⟨4, by omega, by omega, (nb4_idx hx' hx (by omega) (by omega)).2 (by simp [h2])⟩
    · exact ⟨1, by omega, by omega, (nb4_idx hx' hx (by omega) (by omega)).2 (by simp [h2])⟩
    · exact ⟨2, by omega, by omega, (nb4_idx hx' hx (by omega) (by omega)).2 (by simp [h2])⟩
  conn := by
    intro i hi
    obtain ⟨x, y, hx, hy, rfl⟩ := mem_px.1 hi
    have hs : (gridPatch w h img gm).start = idx w 0 0 := by simp [gridPatch, idx]; omega
    rw [hs]
    have key : ∀ p q : Nat × Nat, Adj4 w h p q →
        (gridPatch w h img gm).adj (idx w p.1 p.2) (idx w q.1 q.2) :=
      fun p q hpq => (adj_iff hpq.1 hpq.2.1).2 hpq
    have hrow : ∀ y, y < h → ReflTransGen (gridPatch w h img gm).adj (idx w 0 0) (idx w 0 y) := by
      intro y
      induction y with
      | zero => intro _; exact .refl
      | succ y ih =>
        intro hy
        refine .tail (ih (by omega)) (key (0, y) (0, y + 1) ⟨mem_pixels.2 ?_, mem_pixels.2 ?_, ?_⟩)
        · simp; omega
        · simp; omega
        · simp
    have hcol : ∀ x, x < w → ReflTransGen (gridPatch w h img gm).adj (idx w 0 0) (idx w x y) := by
      intro x
      induction x with
      | zero => intro _; exact hrow y hy
      | succ x ih =>
        intro hx
        refine .tail (ih (by omega)) (key (x, y) (x + 1, y) ⟨mem_pixels.2 ?_, mem_pixels.2 ?_, ?_⟩)
        · simp; omega
        · simp; omega
        · simp
    exact hcol x hx

/-- A patch of at least one pixel with 8-bit values meets the hypotheses. -/
theorem gridPatch_ok {w h : Nat} {img : Nat → Nat → Nat} {gm : Nat} (hw : 1 ≤ w) (hh : 1 ≤ h)
    (hg : ∀ x y, x < w → y < h → img x y < 256) (hm : gm < 256) : (gridPatch w h img gm).OK :=
  gridPatch_ok9 hw hh fun x y hx hy =>
    Nat.lt_succ_of_lt (Nat.xor_lt_two_pow (n := 8) (hg x y hx hy) hm)

theorem gridPatch_card {w h : Nat} {img : Nat → Nat → Nat} {gm : Nat} :
    (gridPatch w h img gm).px.card = w * h := by
  have : (gridPatch w h img gm).px
      = (Finset.range w ×ˢ Finset.range h).image (fun p => idx w p.1 p.2) := rfl
  rw [this, Finset.card_image_of_injOn]
  · simp
  · rintro ⟨x, y⟩ h1 ⟨x', y'⟩ h2 h3
    simp at h1 h2 h3
    obtain ⟨rfl, rfl⟩ := idx_inj (by omega) (by omega) h3
    rfl

/-- Level connectivity in the padded array is level connectivity in the image. -/
theorem lconn_iff {w h : Nat} {img : Nat → Nat → Nat} {gm l : Nat} {p q : Nat × Nat}
    (hp : p ∈ pixels w h) (hq : q ∈ pixels w h) :
    LConn (gridPatch w h img gm).adj (gridPatch w h img gm).gray l (idx w p.1 p.2) (idx w q.1 q.2)
      ↔ LConn (Adj4 w h) (fun p => img p.1 p.2 ^^^ gm) l p q := by
  constructor
  · intro hc
    have : ∀ i j, LConn (gridPatch w h img gm).adj (gridPatch w h img gm).gray l i j →
        ∀ p ∈ pixels w h, i = idx w p.1 p.2 → ∀ q ∈ pixels w h, j = idx w q.1 q.2 →
        LConn (Adj4 w h) (fun p => img p.1 p.2 ^^^ gm) l p q := by
      intro i j hij p hp hi
      induction hij with
      | refl =>
        intro q hq hj
        rw [mem_pixels] at hp hq
        obtain ⟨h1, h2⟩ := idx_inj hp.1.le hq.1.le (hi.symm.trans hj)
        obtain rfl : p = q := Prod.ext h1 h2
        exact .refl
      | @tail b c _ h1 ih =>
        intro q hq hj
        obtain ⟨hbm, hcm, _⟩ := h1.1
        obtain ⟨x, y, hx, hy, rfl⟩ := mem_px.1 hbm
        have hm : (x, y) ∈ pixels w h := mem_pixels.2 ⟨hx, hy⟩
        have h2 := ih (x, y) hm rfl
        subst hj
        obtain ⟨ha, hg1, hg2⟩ := h1
        rw [gridPatch_gray hx] at hg1
        rw [gridPatch_gray (mem_pixels.1 hq).1] at hg2
        exact .tail h2 ⟨(adj_iff hm hq).1 ha, hg1, hg2⟩
    exact this _ _ hc p hp rfl q hq rfl
  · intro hc
    clear hq
    induction hc with
    | refl => exact .refl
    | @tail b c _ h1 ih =>
      have hb := h1.1.1
      have hcm := h1.1.2.1
      refine .tail ih ⟨(adj_iff hb hcm).2 h1.1, ?_, ?_⟩
      · rw [gridPatch_gray (mem_pixels.1 hb).1]; exact h1.2.1
      · rw [gridPatch_gray (mem_pixels.1 hcm).1]; exact h1.2.2

/-- The component tree of the padded array is the component tree of the image. -/
theorem gridTree_isTree {w h : Nat} {img : Nat → Nat → Nat} {gm : Nat} {s : St}
    (hT : IsComponentTree (gridPatch w h img gm).adj (gridPatch w h img gm).gray
      (gridPatch w h img gm).px (treeOf s)) :
    IsComponentTree (Adj4 w h) (fun p => img p.1 p.2 ^^^ gm) (pixels w h) (gridTree w s) := by
  have hmem : ∀ p ∈ pixels w h, idx w p.1 p.2 ∈ (gridPatch w h img gm).px := fun p hp =>
    mem_px.2 ⟨p.1, p.2, (mem_pixels.1 hp).1, (mem_pixels.1 hp).2, rfl⟩
  constructor
  · intro p hp; exact hT.lab_reg _ (hmem p hp)
  · intro p hp
    rw [← gridPatch_gray (h := h) (mem_pixels.1 hp).1]; exact hT.lab_gray _ (hmem p hp)
  · intro r hr
    obtain ⟨i, hi, h1⟩ := hT.reg_lab r hr
    obtain ⟨x, y, hx, hy, rfl⟩ := mem_px.1 hi
    exact ⟨(x, y), mem_pixels.2 ⟨hx, hy⟩, h1⟩
  · exact hT.parent_reg
  · intro r hr p hp hu q hq
    rw [← lconn_iff hp hq]
    exact hT.comp r hr _ (hmem p hp) hu _ (hmem q hq)
  · intro r hr t ht
    have := hT.size_eq r hr (t.image (fun p => idx w p.1 p.2)) (by
      intro i
      rw [Finset.mem_image]
      constructor
      · rintro ⟨p, hp, rfl⟩
        obtain ⟨h1, h2⟩ := (ht p).1 hp
        exact ⟨hmem p h1, h2⟩
      · rintro ⟨h1, h2⟩
        obtain ⟨x, y, hx, hy, rfl⟩ := mem_px.1 h1
        exact ⟨(x, y), (ht _).2 ⟨mem_pixels.2 ⟨hx, hy⟩, h2⟩, rfl⟩)
    rw [Finset.card_image_of_injOn] at this
    · exact this
    · intro p hp q hq hpq
      have h1 := (mem_pixels.1 ((ht p).1 hp).1)
      have h2 := (mem_pixels.1 ((ht q).1 hq).1)
      obtain ⟨h3, h4⟩ := idx_inj h1.1.le h2.1.le hpq
      exact Prod.ext h3 h4

end Verif.Flood
