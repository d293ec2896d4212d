import Verif.Model.Canny
import Verif.Spec.Edge
import Mathlib.Data.Finset.Card
import Mathlib.Tactic.Linarith

/-!
# Edge detector: the map after the scan and after the tracking
-/

namespace Verif.Canny

open Verif.Spec
open Relation (ReflTransGen)

/-- The gradient of the specification. -/
def Img.grad (I : Img) : Gradient :=
  { w := I.cols, h := I.rows, mag := fun x y => I.mag y x, dx := fun x y => I.gx y x, dy := fun x y => I.gy y x }

theorem grad_w (I : Img) : I.grad.w = I.cols := rfl
theorem grad_h (I : Img) : I.grad.h = I.rows := rfl
theorem grad_mag (I : Img) (x y : Nat) : I.grad.mag x y = I.mag y x := rfl
theorem grad_dx (I : Img) (x y : Nat) : I.grad.dx x y = I.gx y x := rfl
theorem grad_dy (I : Img) (x y : Nat) : I.grad.dy x y = I.gy y x := rfl

theorem ext_in (G : Gradient) {x y : Int} (h : 0 ≤ x ∧ x < G.w ∧ 0 ≤ y ∧ y < G.h) : G.ext x y = G.mag x.toNat y.toNat := if_pos h
theorem ext_out (G : Gradient) {x y : Int} (h : ¬(0 ≤ x ∧ x < G.w ∧ 0 ≤ y ∧ y < G.h)) : G.ext x y = 0 := if_neg h

theorem ridge_h (G : Gradient) {x y : Nat} (h : 32768 * (G.dy x y).natAbs < 13573 * (G.dx x y).natAbs) :
    G.Ridge x y ↔ G.ext (x - 1) y < G.mag x y ∧ G.ext (x + 1) y ≤ G.mag x y := by
  unfold Gradient.Ridge; rw [if_pos h]

theorem ridge_v (G : Gradient) {x y : Nat} (h : ¬32768 * (G.dy x y).natAbs < 13573 * (G.dx x y).natAbs)
    (h' : 79109 * (G.dx x y).natAbs < 32768 * (G.dy x y).natAbs) :
    G.Ridge x y ↔ G.ext x (y - 1) < G.mag x y ∧ G.ext x (y + 1) ≤ G.mag x y := by
  unfold Gradient.Ridge; rw [if_neg h, if_pos h']

theorem ridge_d (G : Gradient) {x y : Nat} (h : ¬32768 * (G.dy x y).natAbs < 13573 * (G.dx x y).natAbs)
    (h' : ¬79109 * (G.dx x y).natAbs < 32768 * (G.dy x y).natAbs) (h3 : (G.dx x y < 0) ↔ (G.dy x y < 0)) :
    G.Ridge x y ↔ G.ext (x - 1) (y - 1) < G.mag x y ∧ G.ext (x + 1) (y + 1) < G.mag x y := by
  unfold Gradient.Ridge; rw [if_neg h, if_neg h', if_pos h3]

theorem ridge_d' (G : Gradient) {x y : Nat} (h : ¬32768 * (G.dy x y).natAbs < 13573 * (G.dx x y).natAbs)
    (h' : ¬79109 * (G.dx x y).natAbs < 32768 * (G.dy x y).natAbs) (h3 : ¬((G.dx x y < 0) ↔ (G.dy x y < 0))) :
    G.Ridge x y ↔ G.ext (x + 1) (y - 1) < G.mag x y ∧ G.ext (x - 1) (y + 1) < G.mag x y := by
  unfold Gradient.Ridge; rw [if_neg h, if_neg h', if_neg h3]

/-- An entry of `map`. -/
def cell (I : Img) (r c : Nat) : Nat := I.step * r + c

/-- The entry of a pixel. -/
def enc (I : Img) (p : Nat × Nat) : Nat := cell I (p.2 + 1) (p.1 + 1)

theorem cell_inj {I : Img} {r c r' c' : Nat} (hc : c < I.step) (hc' : c' < I.step) (h : cell I r c = cell I r' c') : r = r' ∧ c = c' := by
  have hs : 0 < I.step := by unfold Img.step; omega
  unfold cell at h
  have h1 := congrArg (· / I.step) h
  have h2 := congrArg (· % I.step) h
  simp only [Nat.mul_add_div hs, Nat.div_eq_of_lt hc, Nat.div_eq_of_lt hc', Nat.mul_add_mod, Nat.mod_eq_of_lt hc, Nat.mod_eq_of_lt hc'] at h1 h2
  exact ⟨by omega, h2⟩

theorem enc_inj {I : Img} {p q : Nat × Nat} (hp : p ∈ pixels I.cols I.rows) (hq : q ∈ pixels I.cols I.rows) (h : enc I p = enc I q) : p = q := by
  rw [mem_pixels] at hp hq
  obtain ⟨h1, h2⟩ := cell_inj (by unfold Img.step; omega) (by unfold Img.step; omega) h
  exact Prod.ext (by omega) (by omega)

theorem cell_lt {I : Img} {r c n : Nat} (hc : c < I.step) (hr : r < n) : cell I r c < I.step * n := by
  unfold cell
  have : I.step * (r + 1) ≤ I.step * n := Nat.mul_le_mul_left _ hr
  rw [Nat.mul_add] at this; omega

/-- The magnitudes of the row `i - 1`, with zeros around. -/
def line (I : Img) (i : Nat) : Nat → Int := if i = 0 then fun _ => 0 else fill I (i - 1)

theorem line_ext (I : Img) (i k : Nat) : line I i k = I.grad.ext ((k : Int) - 1) ((i : Int) - 1) := by
  unfold line
  by_cases hi : i = 0
  · rw [if_pos hi, ext_out _ (by omega)]
  · rw [if_neg hi]
    unfold fill
    by_cases h : i - 1 < I.rows ∧ 1 ≤ k ∧ k ≤ I.cols
    · rw [if_pos h, ext_in _ (by rw [grad_w, grad_h]; omega), grad_mag]
      congr 1 <;> omega
    · rw [if_neg h, ext_out _ (by rw [grad_w, grad_h]; omega)]

/-- The components of the gradient are small enough for the products in `i32`. -/
def Img.Small (I : Img) : Prop := ∀ i < I.rows, ∀ j < I.cols, (I.gx i j).natAbs ≤ 27145 ∧ (I.gy i j).natAbs ≤ 65535

theorem localMax_eq {I : Img} {x y : Nat} (hx : x < I.cols) (hy : y < I.rows) (hg : (I.gx y x).natAbs ≤ 27145 ∧ (I.gy y x).natAbs ≤ 65535) :
    ∃ b, localMax (line I y) (line I (y + 1)) (line I (y + 2)) x (I.gx y x) (I.gy y x) = some b ∧ (b = true ↔ I.grad.Ridge x y) := by
  have hm : line I (y + 1) (x + 1) = I.mag y x := by
    unfold line fill
    rw [if_neg (by omega), if_pos (by omega)]; simp
  have e1 : ∀ k : Nat, line I (y + 1) k = I.grad.ext ((k : Int) - 1) y := fun k => by rw [line_ext]; congr 1; omega
  have e2 : ∀ k : Nat, line I (y + 2) k = I.grad.ext ((k : Int) - 1) (y + 1) := fun k => by rw [line_ext]; congr 1; omega
  have c1 : ((x + 1 : Nat) : Int) - 1 = x := by omega
  have c2 : ((x + 2 : Nat) : Int) - 1 = x + 1 := by omega
  unfold localMax
  rw [hm]
  simp only [line_ext I y, e1, e2, c1, c2]
  rw [← grad_mag, ← grad_dx, ← grad_dy]
  rw [← grad_dx, ← grad_dy] at hg
  have hi : i32max = 2147483647 := rfl
  rw [if_pos (by omega)]
  by_cases h1 : (I.grad.dy x y).natAbs * 32768 < (I.grad.dx x y).natAbs * 13573
  · rw [if_pos h1, ridge_h _ (by omega)]
    exact ⟨_, rfl, by simp⟩
  · rw [if_neg h1, if_pos (by omega)]
    by_cases h2 : (I.grad.dx x y).natAbs * 13573 + (I.grad.dx x y).natAbs * 65536 < (I.grad.dy x y).natAbs * 32768
    · rw [if_pos h2, ridge_v _ (by omega) (by omega)]
      exact ⟨_, rfl, by simp⟩
    · rw [if_neg h2]
      by_cases h3 : (I.grad.dx x y < 0) ↔ (I.grad.dy x y < 0)
      · rw [if_neg (by simp [h3]), ridge_d _ (by omega) (by omega) h3]
        exact ⟨_, rfl, by simp⟩
      · rw [if_pos (by simpa using h3), ridge_d' _ (by omega) (by omega) h3]
        exact ⟨_, rfl, by simp⟩

/-- The borders of the map up to the row `i`. -/
def Border (I : Img) (i : Nat) (map : Nat → Nat) : Prop :=
  ∀ r c, c < I.step → r < I.rows + 2 → (r = 0 ∨ r = I.rows + 1 ∨ ((c = 0 ∨ c = I.cols + 1) ∧ r ≤ i)) → map (cell I r c) = 1

/-- What holds of the pixels that have been scanned. -/
structure Core (I : Img) (D : Nat × Nat → Prop) (map : Nat → Nat) (stack : List Nat) : Prop where
  pix : ∀ p, D p → p ∈ pixels I.cols I.rows
  non : ∀ p, D p → ¬I.grad.Candidate I.low p → map (enc I p) = 1
  can : ∀ p, D p → I.grad.Candidate I.low p → map (enc I p) = 0 ∨ map (enc I p) = 2
  two : ∀ p, D p → map (enc I p) = 2 → enc I p ∈ stack ∧ I.high < I.mag p.2 p.1 ∧ I.grad.Candidate I.low p
  stk : ∀ k ∈ stack, ∃ p, D p ∧ k = enc I p ∧ map k = 2
  nodup : stack.Nodup
  strong : ∀ p, D p → I.grad.Candidate I.low p → I.high < I.mag p.2 p.1 → ∃ q, D q ∧ map (enc I q) = 2 ∧ I.grad.Reach I.low q p

theorem Core.add {I : Img} {D D' : Nat × Nat → Prop} {map : Nat → Nat} {stack st' : List Nat} {v : Nat} (hC : Core I D map stack) {p : Nat × Nat}
    (hp : p ∈ pixels I.cols I.rows) (hD : ¬D p) (hD' : ∀ q, D' q ↔ D q ∨ q = p)
    (H : (v = 1 ∧ ¬I.grad.Candidate I.low p ∧ st' = stack) ∨
      (v = 0 ∧ I.grad.Candidate I.low p ∧ st' = stack ∧ (I.high < I.mag p.2 p.1 → ∃ q, D q ∧ map (enc I q) = 2 ∧ I.grad.Reach I.low q p)) ∨
      (v = 2 ∧ I.grad.Candidate I.low p ∧ I.high < I.mag p.2 p.1 ∧ st' = enc I p :: stack)) :
    Core I D' (upd map (enc I p) v) st' := by
  have fr : ∀ q, D q → upd map (enc I p) v (enc I q) = map (enc I q) := by
    intro q hq
    unfold upd
    rw [if_neg]
    intro e
    rw [enc_inj (hC.pix q hq) hp e] at hq
    exact hD hq
  have nw : upd map (enc I p) v (enc I p) = v := by unfold upd; rw [if_pos rfl]
  have sub : ∀ k ∈ stack, k ∈ st' := by
    rcases H with ⟨_, _, e⟩ | ⟨_, _, e, _⟩ | ⟨_, _, _, e⟩ <;> subst e <;> intro k hk
    · exact hk
    · exact hk
    · exact List.mem_cons_of_mem _ hk
  have hnk : enc I p ∉ stack := by
    intro hk
    obtain ⟨q, hq, e, _⟩ := hC.stk _ hk
    rw [← enc_inj hp (hC.pix q hq) e] at hq
    exact hD hq
  have lift : ∀ q, (∃ r, D r ∧ map (enc I r) = 2 ∧ I.grad.Reach I.low r q) → ∃ r, D' r ∧ upd map (enc I p) v (enc I r) = 2 ∧ I.grad.Reach I.low r q :=
    fun q ⟨r, h1, h2, h3⟩ => ⟨r, (hD' r).2 (Or.inl h1), by rw [fr r h1]; exact h2, h3⟩
  refine ⟨?_, ?_, ?_, ?_, ?_, ?_, ?_⟩
  · intro q hq
    rcases (hD' q).1 hq with h | rfl
    · exact hC.pix q h
    · exact hp
  · intro q hq hn
    rcases (hD' q).1 hq with h | rfl
    · rw [fr q h]; exact hC.non q h hn
    · rw [nw]
      rcases H with ⟨e, _⟩ | ⟨_, h, _⟩ | ⟨_, h, _⟩
      · exact e
      · exact absurd h hn
      · exact absurd h hn
  · intro q hq hc
    rcases (hD' q).1 hq with h | rfl
    · rw [fr q h]; exact hC.can q h hc
    · rw [nw]
      rcases H with ⟨_, h, _⟩ | ⟨e, _⟩ | ⟨e, _⟩
      · exact absurd hc h
      · exact Or.inl e
      · exact Or.inr e
  · intro q hq h2
    rcases (hD' q).1 hq with h | rfl
    · rw [fr q h] at h2
      obtain ⟨h3, h4⟩ := hC.two q h h2
      exact ⟨sub _ h3, h4⟩
    · rw [nw] at h2
      rcases H with ⟨e, _⟩ | ⟨e, _⟩ | ⟨_, h, h', e⟩
      · omega
      · omega
      · exact ⟨e ▸ List.mem_cons_self .., h', h⟩
  · have old : ∀ k ∈ stack, ∃ q, D' q ∧ k = enc I q ∧ upd map (enc I p) v k = 2 := by
      intro k hk
      obtain ⟨q, h1, h2, h3⟩ := hC.stk k hk
      subst h2
      exact ⟨q, (hD' q).2 (Or.inl h1), rfl, by rw [fr q h1]; exact h3⟩
    rcases H with ⟨_, _, e⟩ | ⟨_, _, e, _⟩ | ⟨hv, _, _, e⟩
    · rw [e]; exact old
    · rw [e]; exact old
    · rw [e]
      intro k hk
      rcases List.mem_cons.1 hk with rfl | hk
      · exact ⟨p, (hD' p).2 (Or.inr rfl), rfl, by rw [nw]; exact hv⟩
      · exact old k hk
  · rcases H with ⟨_, _, e⟩ | ⟨_, _, e, _⟩ | ⟨_, _, _, e⟩
    · rw [e]; exact hC.nodup
    · rw [e]; exact hC.nodup
    · rw [e]; exact List.nodup_cons.2 ⟨hnk, hC.nodup⟩
  · intro q hq hc hh
    rcases (hD' q).1 hq with h | rfl
    · exact lift q (hC.strong q h hc hh)
    · rcases H with ⟨_, h, _⟩ | ⟨_, _, _, h⟩ | ⟨e, _⟩
      · exact absurd hc h
      · exact lift _ (h hh)
      · exact ⟨q, hq, by rw [nw]; exact e, ReflTransGen.refl⟩

/-- The pixels scanned before the column `j` of the row `i` (counted from 1). -/
def Done (I : Img) (i j : Nat) (p : Nat × Nat) : Prop := p ∈ pixels I.cols I.rows ∧ (p.2 + 1 < i ∨ (p.2 + 1 = i ∧ p.1 < j))

/-- The invariant of the loop over a row; `n` entries were on the stack at its start. -/
structure InRow (I : Img) (n i j : Nat) (s : Scan) : Prop where
  core : Core I (Done I i j) s.map s.stack
  bord : Border I i s.map
  flag : s.flag = true → ∃ x, x + 1 = j ∧ ∃ q, Done I i j q ∧ s.map (enc I q) = 2 ∧ I.grad.Reach I.low q (x, i - 1)
  len : 2 * s.stack.length ≤ 2 * n + j + (if s.flag = true then 1 else 0)

theorem Reach.step {G : Gradient} {low : Int} {q a b : Nat × Nat} (h : G.Reach low q a) (ha : Adj8 G.w G.h a b) (hb : G.Candidate low b) : G.Reach low q b :=
  ReflTransGen.tail h ⟨ha, hb⟩

theorem Border.upd {I : Img} {i v : Nat} {map : Nat → Nat} (h : Border I i map) {p : Nat × Nat} (hp : p ∈ pixels I.cols I.rows) :
    Border I i (upd map (enc I p) v) := by
  intro r c hc hr hb
  have := h r c hc hr hb
  unfold Canny.upd
  rw [if_neg]
  · exact this
  · intro e
    rw [mem_pixels] at hp
    obtain ⟨h1, h2⟩ := cell_inj hc (by unfold Img.step; omega) e
    omega

theorem scanPixel_spec {I : Img} (hI : I.Small) {n cap i j : Nat} {s : Scan} (hi : 1 ≤ i) (hi' : i ≤ I.rows) (hj : j < I.cols) (h : InRow I n i j s)
    (hcap : 2 * n + I.cols ≤ 2 * cap) :
    ∃ s', scanPixel I cap i (line I (i - 1)) (line I i) (line I (i + 1)) j s = some s' ∧ InRow I n i (j + 1) s' := by
  obtain ⟨y, rfl⟩ : ∃ y, i = y + 1 := ⟨i - 1, by omega⟩
  have hp : ((j, y) : Nat × Nat) ∈ pixels I.cols I.rows := mem_pixels.2 ⟨hj, by omega⟩
  have hm : line I (y + 1) (j + 1) = I.mag y j := by
    unfold line fill
    rw [if_neg (by omega), if_pos (by omega)]; simp
  have hidx : I.step * (y + 1) + 1 + j = enc I (j, y) := by unfold enc cell; dsimp only; omega
  have hup : enc I (j, y) - I.step = cell I y (j + 1) := by
    unfold enc cell; dsimp only; rw [Nat.mul_add]; omega
  have hD : ¬Done I (y + 1) j (j, y) := by rintro ⟨_, h | h⟩ <;> dsimp only at h <;> omega
  have hD' : ∀ q, Done I (y + 1) (j + 1) q ↔ Done I (y + 1) j q ∨ q = (j, y) := by
    intro q
    unfold Done
    constructor
    · rintro ⟨h1, h2⟩
      by_cases e : q.2 = y ∧ q.1 = j
      · exact Or.inr (Prod.ext e.2 e.1)
      · exact Or.inl ⟨h1, by omega⟩
    · rintro (⟨h1, h2⟩ | rfl)
      · exact ⟨h1, by omega⟩
      · exact ⟨hp, Or.inr ⟨rfl, by dsimp only; omega⟩⟩
  have fr : ∀ v q, Done I (y + 1) j q → upd s.map (enc I (j, y)) v (enc I q) = s.map (enc I q) := by
    intro v q hq
    unfold upd
    rw [if_neg]
    intro e
    rw [enc_inj hq.1 hp e] at hq
    exact hD hq
  obtain ⟨b, hb, hb'⟩ := localMax_eq (I := I) hj (by omega : y < I.rows) (hI y (by omega) j hj)
  have hcand : ∃ b, (if I.low < line I (y + 1) (j + 1) then
      localMax (line I (y + 1 - 1)) (line I (y + 1)) (line I (y + 1 + 1)) j (I.gx (y + 1 - 1) j) (I.gy (y + 1 - 1) j) else some false) = some b ∧
      (b = true ↔ I.grad.Candidate I.low (j, y)) := by
    rw [hm]
    by_cases hl : I.low < I.mag y j
    · rw [if_pos hl]
      exact ⟨b, hb, by rw [hb']; exact ⟨fun h => ⟨hp, hl, h⟩, fun h => h.2.2⟩⟩
    · rw [if_neg hl]
      exact ⟨false, rfl, by constructor
                            · intro h; cases h
                            · intro h; exact absurd h.2.1 hl⟩
  obtain ⟨b, hb, hb'⟩ := hcand
  unfold scanPixel
  rw [hb, Option.bind_some, hm]
  dsimp only
  rw [hidx, hup]
  by_cases hc : I.grad.Candidate I.low (j, y)
  · rw [if_pos (hb'.2 hc)]
    by_cases hpush : s.flag = false ∧ I.high < I.mag y j ∧ s.map (cell I y (j + 1)) ≠ 2
    · have hl := h.len
      rw [if_neg (by rw [hpush.1]; decide)] at hl
      rw [if_pos hpush, if_pos (by omega)]
      have hC := h.core.add (v := 2) (st' := enc I (j, y) :: s.stack) hp hD hD' (Or.inr (Or.inr ⟨rfl, hc, hpush.2.1, rfl⟩))
      refine ⟨_, rfl, hC, h.bord.upd hp, ?_, ?_⟩
      · intro _
        refine ⟨j, rfl, (j, y), (hD' _).2 (Or.inr rfl), ?_, ReflTransGen.refl⟩
        dsimp only; unfold upd; rw [if_pos rfl]
      · dsimp only [List.length_cons]
        rw [if_pos rfl]; omega
    · rw [if_neg hpush]
      have hflag : s.flag = true → ∃ q, Done I (y + 1) j q ∧ s.map (enc I q) = 2 ∧ I.grad.Reach I.low q (j, y) := by
        intro hf
        obtain ⟨x, hx, q, h1, h2, h3⟩ := h.flag hf
        refine ⟨q, h1, h2, Reach.step h3 ⟨?_, hp, ?_, ?_⟩ hc⟩
        · exact mem_pixels.2 ⟨by show x < I.cols; omega, by show y + 1 - 1 < I.rows; omega⟩
        · intro e; have := congrArg Prod.fst e; dsimp only at this; omega
        · dsimp only; omega
      have hC := h.core.add (v := 0) (st' := s.stack) hp hD hD' (Or.inr (Or.inl ⟨rfl, hc, rfl, by
        intro hh
        by_cases hf : s.flag = true
        · exact hflag hf
        · have h2 : s.map (cell I y (j + 1)) = 2 := by
            by_contra h2
            exact hpush ⟨by simpa using hf, hh, h2⟩
          have hy : y ≠ 0 := by
            rintro rfl
            rw [h.bord 0 (j + 1) (by unfold Img.step; omega) (by omega) (Or.inl rfl)] at h2
            omega
          obtain ⟨z, rfl⟩ : ∃ z, y = z + 1 := ⟨y - 1, by omega⟩
          have hz : ((j, z) : Nat × Nat) ∈ pixels I.cols I.rows := mem_pixels.2 ⟨hj, by dsimp only; omega⟩
          refine ⟨(j, z), ⟨hz, Or.inl (by dsimp only; omega)⟩, h2, Reach.step ReflTransGen.refl ⟨hz, hp, ?_, ?_⟩ hc⟩
          · intro e; have := congrArg Prod.snd e; dsimp only at this; omega
          · dsimp only; omega⟩))
      refine ⟨_, rfl, hC, h.bord.upd hp, ?_, ?_⟩
      · intro hf
        obtain ⟨q, h1, h2, h3⟩ := hflag hf
        exact ⟨j, rfl, q, (hD' q).2 (Or.inl h1), (fr 0 q h1).trans h2, h3⟩
      · have := h.len
        dsimp only; omega
  · rw [if_neg (fun e => hc (hb'.1 e))]
    have hC := h.core.add (v := 1) (st' := s.stack) hp hD hD' (Or.inl ⟨rfl, hc, rfl⟩)
    refine ⟨_, rfl, hC, h.bord.upd hp, (by intro hf; simp at hf), ?_⟩
    have := h.len
    dsimp only
    rw [if_neg (by decide)]
    split at this <;> omega

theorem scanLoop_spec {I : Img} (hI : I.Small) {n cap i : Nat} (hi : 1 ≤ i) (hi' : i ≤ I.rows) (hcap : 2 * n + I.cols ≤ 2 * cap) :
    ∀ (k j : Nat) (s : Scan), j + k = I.cols → InRow I n i j s →
      ∃ s', scanLoop I cap i (line I (i - 1)) (line I i) (line I (i + 1)) k j s = some s' ∧ InRow I n i I.cols s'
  | 0, j, s, hk, h => ⟨s, rfl, by have : j = I.cols := by omega
                                  rw [← this]; exact h⟩
  | k + 1, j, s, hk, h => by
    obtain ⟨s', h1, h2⟩ := scanPixel_spec hI hi hi' (by omega) h hcap
    obtain ⟨s'', h3, h4⟩ := scanLoop_spec hI hi hi' hcap k (j + 1) s' (by omega) h2
    exact ⟨s'', by rw [scanLoop, h1]; exact h3, h4⟩

end Verif.Canny
