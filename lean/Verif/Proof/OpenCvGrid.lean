import Verif.Proof.OpenCvFlood
import Verif.Proof.Grid

/-!
# The OpenCV detector: the padded image meets the hypotheses of the flooding proof
-/

namespace Verif.OpenCv

open Verif.Flood (Patch divmod_unique)
open Verif.Spec (pixels mem_pixels Adj4 LConn)
open Verif.Extract (Rect)
open Relation (ReflTransGen)

/-! ### The row length -/

theorem grow_spec (w : Nat) : ∀ (f k : Nat), w + 2 ≤ 2 ^ (k + f) → 3 ≤ k →
    ∃ k', grow w f (2 ^ k, k) = (2 ^ k', k') ∧ w + 2 ≤ 2 ^ k' ∧ 3 ≤ k'
  | 0, k, h, h3 => ⟨k, rfl, h, h3⟩
  | f + 1, k, h, h3 => by
    unfold grow
    by_cases hlt : 2 ^ k < w + 2
    · rw [if_pos (show (2 ^ k, k).1 < w + 2 from hlt)]
      have := grow_spec w f (k + 1) (by rw [show k + 1 + f = k + (f + 1) by omega]; exact h) (by omega)
      rwa [Nat.pow_succ] at this
    · rw [if_neg (show ¬ (2 ^ k, k).1 < w + 2 from hlt)]
      exact ⟨k, rfl, by omega, h3⟩

theorem widthGap_spec (w : Nat) :
    (widthGap w).1 = 2 ^ (widthGap w).2 ∧ w + 2 ≤ (widthGap w).1 ∧ 3 ≤ (widthGap w).2 := by
  obtain ⟨k, h1, h2, h3⟩ := grow_spec w (w + 2) 3 (by
    have : w + 2 < 2 ^ (w + 2) := Nat.lt_two_pow_self
    have h2 : 2 ^ (w + 2) ≤ 2 ^ (3 + (w + 2)) := Nat.pow_le_pow_right (by omega) (by omega)
    omega) (by omega)
  have : widthGap w = (2 ^ k, k) := h1
  rw [this]
  exact ⟨rfl, h2, h3⟩

/-! ### The cells -/

variable {W w h gm : Nat} {img : Nat → Nat → Nat}

theorem cell_inj {p q : Nat × Nat} (hW : w + 2 ≤ W) (hp : p.1 ≤ w) (hq : q.1 ≤ w) (e : cell W p = cell W q) : p = q := by
  unfold cell at e
  have := divmod_unique (by omega) (by omega) e
  exact Prod.ext (by omega) (by omega)

theorem cell_mod {p : Nat × Nat} (hW : w + 2 ≤ W) (hp : p.1 < w) : cell W p % W = p.1 + 1 := by
  unfold cell; rw [Nat.mul_comm, Nat.mul_add_mod, Nat.mod_eq_of_lt (by omega)]

theorem cell_div {p : Nat × Nat} (hW : w + 2 ≤ W) (hp : p.1 < w) : cell W p / W = p.2 + 1 := by
  unfold cell
  rw [Nat.mul_comm, Nat.mul_add_div (by omega), Nat.div_eq_of_lt (by omega)]

theorem patchO_gray {p : Nat × Nat} (hW : w + 2 ≤ W) (hp : p.1 < w) :
    (patchO W w h img gm).gray (cell W p) = level gm (img p.1 p.2) := by
  simp [patchO, cell_mod hW hp, cell_div hW hp]

theorem mem_pxO {i : Nat} : i ∈ (patchO W w h img gm).px ↔ ∃ p ∈ pixels w h, i = cell W p := by
  simp only [patchO, Finset.mem_image]
  exact ⟨fun ⟨p, h1, h2⟩ => ⟨p, h1, h2.symm⟩, fun ⟨p, h1, h2⟩ => ⟨p, h1, h2.symm⟩⟩

/-- The four neighbours as row and column of the buffer. -/
theorem nbO_cell {x y k : Nat} (h1 : 1 ≤ k) (h4 : k ≤ 4) :
    nbO W (cell W (x, y)) k =
      if k = 1 then (y + 1) * W + (x + 2) else if k = 2 then (y + 2) * W + (x + 1) else if k = 3 then (y + 1) * W + x
      else y * W + (x + 1) := by
  have hk : k = 1 ∨ k = 2 ∨ k = 3 ∨ k = 4 := by omega
  rcases hk with rfl | rfl | rfl | rfl
  · rw [if_pos rfl]; simp only [nbO, cell]; omega
  · rw [if_neg (by decide), if_pos rfl]; simp only [nbO, cell, Nat.add_mul]; omega
  · rw [if_neg (by decide), if_neg (by decide), if_pos rfl]; simp only [nbO, cell]; omega
  · rw [if_neg (by decide), if_neg (by decide), if_neg (by decide)]; simp only [nbO, cell, Nat.add_mul]; omega

theorem nbO_iff {x y x' y' k : Nat} (hW : w + 2 ≤ W) (hx : x < w) (hx' : x' < w) (h1 : 1 ≤ k) (h4 : k ≤ 4) :
    nbO W (cell W (x, y)) k = cell W (x', y') ↔
      (k = 1 ∧ y' = y ∧ x' = x + 1) ∨ (k = 2 ∧ x' = x ∧ y' = y + 1) ∨
      (k = 3 ∧ y' = y ∧ x = x' + 1) ∨ (k = 4 ∧ x' = x ∧ y = y' + 1) := by
  rw [nbO_cell h1 h4]
  have hk : k = 1 ∨ k = 2 ∨ k = 3 ∨ k = 4 := by omega
  unfold cell
  rcases hk with rfl | rfl | rfl | rfl
  · rw [if_pos rfl]
    constructor
    · intro h; have := divmod_unique (by omega) (by omega) h; omega
    · intro h; obtain ⟨rfl, rfl⟩ : y' = y ∧ x' = x + 1 := by omega
      rfl
  · rw [if_neg (by decide), if_pos rfl]
    constructor
    · intro h; have := divmod_unique (by omega) (by omega) h; omega
    · intro h; obtain ⟨rfl, rfl⟩ : x' = x ∧ y' = y + 1 := by omega
      rfl
  · rw [if_neg (by decide), if_neg (by decide), if_pos rfl]
    constructor
    · intro h; have := divmod_unique (by omega) (by omega) h; omega
    · intro h; obtain ⟨rfl, rfl⟩ : y' = y ∧ x = x' + 1 := by omega
      rfl
  · rw [if_neg (by decide), if_neg (by decide), if_neg (by decide)]
    constructor
    · intro h; have := divmod_unique (by omega) (by omega) h; omega
    · intro h; obtain ⟨rfl, rfl⟩ : x' = x ∧ y = y' + 1 := by omega
      rfl

theorem adjO_iff {p q : Nat × Nat} (hW : w + 2 ≤ W) (hp : p ∈ pixels w h) (hq : q ∈ pixels w h) :
    (patchO W w h img gm).adj (cell W p) (cell W q) ↔ Adj4 w h p q := by
  obtain ⟨x, y⟩ := p
  obtain ⟨x', y'⟩ := q
  have hp' := mem_pixels.1 hp
  have hq' := mem_pixels.1 hq
  simp only at hp' hq'
  constructor
  · rintro ⟨_, _, k, k1, k2, k3⟩
    have := (nbO_iff hW hp'.1 hq'.1 k1 k2).1 k3
    refine ⟨hp, hq, ?_⟩
    simp only; omega
  · rintro ⟨_, _, h1⟩
    refine ⟨mem_pxO.2 ⟨_, hp, rfl⟩, mem_pxO.2 ⟨_, hq, rfl⟩, ?_⟩
    simp only at h1
    show ∃ k, 1 ≤ k ∧ k ≤ 4 ∧ nbO W (cell W (x, y)) k = cell W (x', y')
    have : (y' = y ∧ x' = x + 1) ∨ (x' = x ∧ y' = y + 1) ∨ (y' = y ∧ x = x' + 1) ∨
      (x' = x ∧ y = y' + 1) := by omega
    rcases this with h2 | h2 | h2 | h2
    · exact ⟨1, by omega, by omega, (nbO_iff hW hp'.1 hq'.1 (by omega) (by omega)).2 (by omega)⟩
    · exact ⟨2, by omega, by omega, (nbO_iff hW hp'.1 hq'.1 (by omega) (by omega)).2 (by omega)⟩
    · exact ⟨3, by omega, by omega, (nbO_iff hW hp'.1 hq'.1 (by omega) (by omega)).2 (by omega)⟩
    · exact ⟨4, by omega, by omega, (nbO_iff hW hp'.1 hq'.1 (by omega) (by omega)).2 (by omega)⟩

theorem level_lt {v : Nat} (hv : v < 256) : level gm v < 256 := by
  unfold level; split <;> omega

theorem patchO_ok (hW : w + 2 ≤ W) (hw : 1 ≤ w) (hh : 1 ≤ h) (hg : ∀ x y, x < w → y < h → img x y < 256) :
    (patchO W w h img gm).OK where
  start_mem := mem_pxO.2 ⟨(0, 0), mem_pixels.2 ⟨hw, hh⟩, by simp [patchO, cell]⟩
  gray_lt := by
    intro i hi
    obtain ⟨p, hp, rfl⟩ := mem_pxO.1 hi
    rw [mem_pixels] at hp
    rw [patchO_gray hW hp.1]
    exact Nat.lt_succ_of_lt (level_lt (hg _ _ hp.1 hp.2))
  symm := by
    intro i hi k k1 k2 hk
    obtain ⟨⟨x, y⟩, hp, rfl⟩ := mem_pxO.1 hi
    obtain ⟨⟨x', y'⟩, hq, e⟩ := mem_pxO.1 hk
    have hx := (mem_pixels.1 hp).1
    have hx' := (mem_pixels.1 hq).1
    have h1 := (nbO_iff hW hx hx' k1 k2).1 e
    rw [e]
    show ∃ k', 1 ≤ k' ∧ k' ≤ 4 ∧ nbO W (cell W (x', y')) k' = cell W (x, y)
    rcases h1 with h2 | h2 | h2 | h2
    · exact ⟨3, by omega, by omega, (nbO_iff hW hx' hx (by omega) (by omega)).2 (by omega)⟩
    · exact ⟨4, by omega, by omega, (nbO_iff hW hx' hx (by omega) (by omega)).2 (by omega)⟩
    · exact ⟨1, by omega, by omega, (nbO_iff hW hx' hx (by omega) (by omega)).2 (by omega)⟩
    · exact ⟨2, by omega, by omega, (nbO_iff hW hx' hx (by omega) (by omega)).2 (by omega)⟩
  conn := by
    intro i hi
    obtain ⟨⟨x, y⟩, hp, rfl⟩ := mem_pxO.1 hi
    rw [mem_pixels] at hp
    obtain ⟨hx, hy⟩ := hp
    dsimp only at hx hy
    have hs : (patchO W w h img gm).start = cell W (0, 0) := by simp [patchO, cell]
    rw [hs]
    have key : ∀ p q : Nat × Nat, Adj4 w h p q → (patchO W w h img gm).adj (cell W p) (cell W q) :=
      fun p q hpq => (adjO_iff hW hpq.1 hpq.2.1).2 hpq
    have hrow : ∀ y, y < h → ReflTransGen (patchO W w h img gm).adj (cell W (0, 0)) (cell W (0, y)) := by
      intro y
      induction y with
      | zero => intro _; exact .refl
      | succ y ih =>
        intro hy
        refine .tail (ih (by omega)) (key (0, y) (0, y + 1) ⟨mem_pixels.2 ?_, mem_pixels.2 ?_, ?_⟩)
        · simp; omega
        · simp; omega
        · simp
    have hcol : ∀ x, x < w → ReflTransGen (patchO W w h img gm).adj (cell W (0, 0)) (cell W (x, y)) := by
      intro x
      induction x with
      | zero => intro _; exact hrow y hy
      | succ x ih =>
        intro hx
        refine .tail (ih (by omega))
          (key (x, y) (x + 1, y) ⟨mem_pixels.2 ?_, mem_pixels.2 ?_, ?_⟩)
        · simp; omega
        · simp; omega
        · simp
    exact hcol x hx

theorem patchO_card (hW : w + 2 ≤ W) : (patchO W w h img gm).px.card = w * h := by
  show ((Finset.range w ×ˢ Finset.range h).image (cell W)).card = w * h
  rw [Finset.card_image_of_injOn]
  · simp
  · rintro p h1 q h2 h3
    simp at h1 h2
    exact cell_inj hW h1.1.le h2.1.le h3

theorem envO_ok {cfg : Recog.Cfg} {gap : Nat} (hw : 1 ≤ w) (hh : 1 ≤ h) (hg : ∀ x y, x < w → y < h → img x y < 256)
    (hgap : gap < 32) : EnvOK (envO w h img gm cfg gap) where
  ok := patchO_ok (widthGap_spec w).2.1 hw hh hg
  gray := by
    intro i hi
    obtain ⟨p, hp, rfl⟩ := mem_pxO.1 hi
    rw [mem_pixels] at hp
    show (patchO (widthGap w).1 w h img gm).gray _ < 256
    rw [patchO_gray (widthGap_spec w).2.1 hp.1]
    exact level_lt (hg _ _ hp.1 hp.2)
  area := (patchO_card (widthGap_spec w).2.1).symm
  gap := hgap

/-- A cell the pass looks at is a cell of the first `w + 2` columns and `h + 2` rows, and none of the four corners. -/
theorem seen_cell {i : Nat} (hs : Seen (patchO W w h img gm) i) :
    ∃ r c, i = r * W + c ∧ r < h + 2 ∧ c < w + 2 ∧ ((1 ≤ r ∧ r ≤ h) ∨ (1 ≤ c ∧ c ≤ w)) := by
  rcases hs with hs | ⟨j, hj, k, k1, k4, rfl⟩
  · obtain ⟨p, hp, rfl⟩ := mem_pxO.1 hs
    rw [mem_pixels] at hp
    exact ⟨p.2 + 1, p.1 + 1, rfl, by omega, by omega, by omega⟩
  · obtain ⟨⟨x, y⟩, hp, rfl⟩ := mem_pxO.1 hj
    have hp' := mem_pixels.1 hp
    simp only at hp'
    have e : (patchO W w h img gm).nb (cell W (x, y)) k = nbO W (cell W (x, y)) k := rfl
    rw [e, nbO_cell k1 k4]
    have hk : k = 1 ∨ k = 2 ∨ k = 3 ∨ k = 4 := by
      have : k ≤ 4 := k4
      omega
    rcases hk with rfl | rfl | rfl | rfl
    · exact ⟨y + 1, x + 2, rfl, by omega, by omega, by omega⟩
    · exact ⟨y + 2, x + 1, rfl, by omega, by omega, by omega⟩
    · exact ⟨y + 1, x, rfl, by omega, by omega, by omega⟩
    · exact ⟨y, x + 1, rfl, by omega, by omega, by omega⟩

/-- The cells looked at lie in the buffer. -/
theorem seen_lt (hW : w + 2 ≤ W) {i : Nat} (hs : Seen (patchO W w h img gm) i) : i < W * (h + 2) := by
  obtain ⟨r, c, rfl, h1, h2, _⟩ := seen_cell hs
  have : (r + 1) * W ≤ (h + 2) * W := Nat.mul_le_mul_right _ h1
  rw [Nat.succ_mul] at this
  rw [Nat.mul_comm W]
  omega

/-- The border is marked visited and the pixels are not, whatever the buffer contained. -/
theorem seen_vis (hW : w + 2 ≤ W) (old : Nat → Int) {i : Nat} (hs : Seen (patchO W w h img gm) i) :
    decide (preProcess W w h img gm old i < 0) = false ↔ i ∈ (patchO W w h img gm).px := by
  obtain ⟨r, c, rfl, h1, h2, h3⟩ := seen_cell hs
  have hm : (r * W + c) % W = c := by rw [Nat.mul_comm, Nat.mul_add_mod, Nat.mod_eq_of_lt (by omega)]
  have hd : (r * W + c) / W = r := by rw [Nat.mul_comm, Nat.mul_add_div (by omega), Nat.div_eq_of_lt (by omega)]; rfl
  unfold preProcess
  simp only [hm, hd]
  rw [if_neg (by omega)]
  by_cases hb : r = 0 ∨ r = h + 1 ∨ c = 0 ∨ c = w + 1
  · rw [if_pos hb]
    refine ⟨fun h => by simp at h, fun hi => ?_⟩
    obtain ⟨p, hp, e⟩ := mem_pxO.1 hi
    rw [mem_pixels] at hp
    unfold cell at e
    have := divmod_unique (by omega) (by omega) e
    omega
  · rw [if_neg hb]
    refine ⟨fun _ => mem_pxO.2 ⟨(c - 1, r - 1), mem_pixels.2 ⟨by simp only; omega, by simp only; omega⟩, ?_⟩, fun _ => by simp⟩
    unfold cell
    simp only
    rw [show r - 1 + 1 = r by omega, show c - 1 + 1 = c by omega]

/-! ### Coordinates -/

theorem place_x {cfg : Recog.Cfg} {gap : Nat} {p : Nat × Nat} (hp : p.1 < w) :
    (place (envO w h img gm cfg gap) (cell (widthGap w).1 p)).1 = p.1 := by
  obtain ⟨h1, h2, _⟩ := widthGap_spec w
  show (cell (widthGap w).1 p - ((widthGap w).1 + 1)) &&& ((widthGap w).1 - 1) = p.1
  have e : cell (widthGap w).1 p - ((widthGap w).1 + 1) = (widthGap w).1 * p.2 + p.1 := by
    unfold cell; rw [Nat.succ_mul, Nat.mul_comm]; omega
  rw [e]
  generalize hW : (widthGap w).1 = W at *
  rw [h1, Nat.and_two_pow_sub_one_eq_mod, ← h1, Nat.mul_add_mod, Nat.mod_eq_of_lt (by omega)]

theorem place_y {cfg : Recog.Cfg} {gap : Nat} {p : Nat × Nat} :
    (place (envO w h img gm cfg gap) (cell (widthGap w).1 p)).2 = ((widthGap w).1 * p.2 + p.1) / 2 ^ gap := by
  show (cell (widthGap w).1 p - ((widthGap w).1 + 1)) >>> gap = _
  have e : cell (widthGap w).1 p - ((widthGap w).1 + 1) = (widthGap w).1 * p.2 + p.1 := by
    unfold cell; rw [Nat.succ_mul, Nat.mul_comm]; omega
  rw [e, Nat.shiftRight_eq_div_pow]

/-- With the right shift the coordinates are the coordinates of the pixel. -/
theorem place_eq {cfg : Recog.Cfg} {p : Nat × Nat} (hp : p.1 < w) :
    place (envO w h img gm cfg (widthGap w).2) (cell (widthGap w).1 p) = p := by
  obtain ⟨h1, h2, _⟩ := widthGap_spec w
  refine Prod.ext (place_x hp) ?_
  rw [place_y, ← h1, Nat.mul_add_div (by omega), Nat.div_eq_of_lt (by omega)]; rfl

/-! ### Connectedness -/

theorem lconnO_iff {l : Nat} {p q : Nat × Nat} (hW : w + 2 ≤ W) (hp : p ∈ pixels w h) (hq : q ∈ pixels w h) :
    LConn (patchO W w h img gm).adj (patchO W w h img gm).gray l (cell W p) (cell W q)
      ↔ LConn (Adj4 w h) (fun p => level gm (img p.1 p.2)) l p q := by
  constructor
  · intro hc
    have : ∀ i j, LConn (patchO W w h img gm).adj (patchO W w h img gm).gray l i j →
        ∀ p ∈ pixels w h, i = cell W p → ∀ q ∈ pixels w h, j = cell W q →
        LConn (Adj4 w h) (fun p => level gm (img p.1 p.2)) l p q := by
      intro i j hij p hp hi
      induction hij with
      | refl =>
        intro q hq hj
        rw [mem_pixels] at hp hq
        obtain rfl : p = q := cell_inj hW hp.1.le hq.1.le (hi.symm.trans hj)
        exact .refl
      | @tail b c _ h1 ih =>
        intro q hq hj
        obtain ⟨hbm, hcm, _⟩ := h1.1
        obtain ⟨b', hb, rfl⟩ := mem_pxO.1 hbm
        have h2 := ih b' hb rfl
        subst hj
        obtain ⟨ha, hg1, hg2⟩ := h1
        rw [patchO_gray hW (mem_pixels.1 hb).1] at hg1
        rw [patchO_gray hW (mem_pixels.1 hq).1] at hg2
        exact .tail h2 ⟨(adjO_iff hW hb hq).1 ha, hg1, hg2⟩
    exact this _ _ hc p hp rfl q hq rfl
  · intro hc
    clear hq
    induction hc with
    | refl => exact .refl
    | @tail b c _ h1 ih =>
      have hb := h1.1.1
      have hcm := h1.1.2.1
      refine .tail ih ⟨(adjO_iff hW hb hcm).2 h1.1, ?_, ?_⟩
      · rw [patchO_gray hW (mem_pixels.1 hb).1]; exact h1.2.1
      · rw [patchO_gray hW (mem_pixels.1 hcm).1]; exact h1.2.2

/-! ### The rectangle -/

theorem foldl_min (f : Nat × Nat → Nat) : ∀ (l : List (Nat × Nat)) (m : Nat),
    l.foldl (fun m p => min m (f p)) m ≤ m ∧ (∀ p ∈ l, l.foldl (fun m p => min m (f p)) m ≤ f p) ∧
    (l.foldl (fun m p => min m (f p)) m = m ∨ ∃ p ∈ l, f p = l.foldl (fun m p => min m (f p)) m)
  | [], m => by simp
  | a :: l, m => by
    obtain ⟨h1, h2, h3⟩ := foldl_min f l (min m (f a))
    simp only [List.foldl_cons]
    refine ⟨by omega, ?_, ?_⟩
    · intro p hp
      rcases List.mem_cons.1 hp with rfl | hp
      · omega
      · exact h2 p hp
    · rcases h3 with h3 | ⟨p, hp, h3⟩
      · rcases Nat.le_total m (f a) with h | h
        · left; omega
        · exact .inr ⟨a, by simp, by omega⟩
      · exact .inr ⟨p, by simp [hp], h3⟩

theorem foldl_max (f : Nat × Nat → Nat) : ∀ (l : List (Nat × Nat)) (m : Nat),
    m ≤ l.foldl (fun m p => max m (f p)) m ∧ (∀ p ∈ l, f p ≤ l.foldl (fun m p => max m (f p)) m) ∧
    (l.foldl (fun m p => max m (f p)) m = m ∨ ∃ p ∈ l, f p = l.foldl (fun m p => max m (f p)) m)
  | [], m => by simp
  | a :: l, m => by
    obtain ⟨h1, h2, h3⟩ := foldl_max f l (max m (f a))
    simp only [List.foldl_cons]
    refine ⟨by omega, ?_, ?_⟩
    · intro p hp
      rcases List.mem_cons.1 hp with rfl | hp
      · omega
      · exact h2 p hp
    · rcases h3 with h3 | ⟨p, hp, h3⟩
      · rcases Nat.le_total m (f a) with h | h
        · exact .inr ⟨a, by simp, by omega⟩
        · left; omega
      · exact .inr ⟨p, by simp [hp], h3⟩

end Verif.OpenCv
