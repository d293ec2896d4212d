import Verif.Proof.CannyTrack

/-!
# Properties C138–C141: the edge detector `img_canny`

`canny I b c junk` is one run; `I.grad` is the gradient with columns first; `b`, `c` and `junk` are what the reused buffer contains.
-/

namespace Verif.Props

open Verif.Spec
open Verif.Canny (canny Img scanLoop scanPixel localMax upd fill line Scan canny_spec)
open Relation (ReflTransGen)

open Classical in
/-- **C138** (partial: the components of the gradient are at most 27145 and 65535, and the image has at most 1023 columns or at least a tenth
as many pixels as columns and one).  The run ends without an access outside of its buffers, and the edge image is 255 exactly at the pixels
that are reached over candidates from a candidate above the high threshold, 0 elsewhere, whatever the buffer contained. -/
theorem C138_edges_partial (I : Img) (hs : ∀ i < I.rows, ∀ j < I.cols, (I.gx i j).natAbs ≤ 27145 ∧ (I.gy i j).natAbs ≤ 65535)
    (hr : I.cols + 1 ≤ max 1024 (I.rows * I.cols / 10)) (b c : Nat → Int) (junk : Nat → Nat) :
    ∃ f, canny I b c junk = some f ∧ ∀ y x, x < I.cols → y < I.rows → f y x = if I.grad.IsEdge I.low I.high (x, y) then 255 else 0 :=
  canny_spec hs hr b c junk

/-- An image with at least eleven rows always meets the condition on the size. -/
theorem C138_eleven (I : Img) (h : 11 ≤ I.rows) : I.cols + 1 ≤ max 1024 (I.rows * I.cols / 10) := by
  have h1 : 11 * I.cols ≤ I.rows * I.cols := Nat.mul_le_mul_right _ h
  omega

/-- A small image: a line with one strong pixel, and a weak pixel apart. -/
def cannyImg : Img :=
  ⟨5, 3, fun i j => if j = 1 then (if i = 1 then 120 else if i = 3 then 10 else 60) else 0, fun _ _ => 10, fun _ _ => 0, 40, 100⟩

example : (∀ i < cannyImg.rows, ∀ j < cannyImg.cols, (cannyImg.gx i j).natAbs ≤ 27145 ∧ (cannyImg.gy i j).natAbs ≤ 65535) ∧
    cannyImg.cols + 1 ≤ max 1024 (cannyImg.rows * cannyImg.cols / 10) := by decide

example : (canny cannyImg (fun _ => 99) (fun _ => 77) (fun _ => 2)).map (fun f => (List.range 5).map fun i => (List.range 3).map (f i)) =
    some [[0, 255, 0], [0, 255, 0], [0, 255, 0], [0, 0, 0], [0, 0, 0]] := by decide +kernel

/-- One row of 4000 columns, every other one a strong edge. -/
def cannyWide : Img := ⟨1, 4000, fun _ j => if j % 2 = 0 then 200 else 0, fun _ _ => 10, fun _ _ => 0, 50, 100⟩

theorem wide_fill (k : Nat) : fill cannyWide 0 k = if 1 ≤ k ∧ k ≤ 4000 ∧ k % 2 = 1 then 200 else 0 := by
  have h1 : cannyWide.rows = 1 := rfl
  have h2 : cannyWide.cols = 4000 := rfl
  have h3 : cannyWide.mag 0 (k - 1) = if (k - 1) % 2 = 0 then 200 else 0 := rfl
  unfold fill
  by_cases h : 1 ≤ k ∧ k ≤ 4000
  · rw [if_pos (by omega), h3]
    by_cases h' : k % 2 = 1
    · rw [if_pos (by omega), if_pos (by omega)]
    · rw [if_neg (by omega), if_neg (by omega)]
  · rw [if_neg (by omega), if_neg (by omega)]

theorem wide_line' (k : Nat) : fill cannyWide 0 k ≤ 200 := by
  rw [wide_fill]
  split <;> decide

theorem wide_even (k : Nat) (hk : k % 2 = 0) : fill cannyWide 0 k < 200 := by
  rw [wide_fill, if_neg (by omega)]; decide

theorem wide_loop (A C : Nat → Int) (r : Nat) : ∀ (n j : Nat) (s : Scan), j % 2 = 0 → s.flag = false → (∀ k < 4002, s.map k = 1) →
    s.stack.length ≤ 1536 → 1536 < s.stack.length + n → j + 2 * n ≤ 4000 →
    scanLoop cannyWide 1536 1 A (fill cannyWide 0) C (2 * n + r) j s = none
  | 0, _, _, _, _, _, h1, h2, _ => by omega
  | n + 1, j, s, hj, hf, hm, hl, hn, hb => by
    have e : 2 * (n + 1) + r = (2 * n + r) + 1 + 1 := by omega
    rw [e, scanLoop]
    have hstep : cannyWide.step = 4002 := rfl
    have hlow : cannyWide.low = 50 := rfl
    have hhigh : cannyWide.high = 100 := rfl
    have hB : fill cannyWide 0 (j + 1) = 200 := by rw [wide_fill, if_pos (by omega)]
    have hB2 : fill cannyWide 0 (j + 1 + 1) = 0 := by rw [wide_fill, if_neg (by omega)]
    have hloc : localMax A (fill cannyWide 0) C j (cannyWide.gx (1 - 1) j) (cannyWide.gy (1 - 1) j) = some true := by
      show localMax A (fill cannyWide 0) C j 10 0 = some true
      have h1 := wide_even j hj
      have h2 := wide_line' (j + 2)
      unfold localMax
      rw [hB]
      simp [Canny.i32max, h1, h2]
    have h1 : scanPixel cannyWide 1536 1 A (fill cannyWide 0) C j s =
        if s.stack.length < 1536 then
          some { map := upd s.map (4002 * 1 + 1 + j) 2, stack := (4002 * 1 + 1 + j) :: s.stack, flag := true } else none := by
      unfold scanPixel
      rw [hB, hlow, hhigh, hstep, if_pos (by decide), hloc, Option.bind_some]
      dsimp only
      rw [if_pos rfl, if_pos ⟨hf, by decide, by rw [hm _ (by omega)]; decide⟩]
    rw [h1]
    by_cases hlt : s.stack.length < 1536
    · rw [if_pos hlt, Option.bind_some, scanLoop]
      have h2 : ∀ s : Scan, scanPixel cannyWide 1536 1 A (fill cannyWide 0) C (j + 1) s =
          some { s with map := upd s.map (4002 * 1 + 1 + (j + 1)) 1, flag := false } := by
        intro s
        unfold scanPixel
        rw [hB2, hlow, hstep, if_neg (by decide), Option.bind_some]
        dsimp only
        rw [if_neg (by decide)]
      rw [h2, Option.bind_some]
      refine wide_loop A C r n (j + 1 + 1) _ (by omega) rfl ?_ ?_ ?_ (by omega)
      · intro k hk
        dsimp only
        unfold upd
        rw [if_neg (by omega), if_neg (by omega)]
        exact hm k hk
      · dsimp only [List.length_cons]; omega
      · dsimp only [List.length_cons]; omega
    · rw [if_neg hlt]; rfl

/-- C138 does not hold of wide images with few rows: with one row of 4000 columns the stack has 1536 entries, and the run writes behind it. -/
theorem not_C138_wide (b c : Nat → Int) (junk : Nat → Nat) : canny cannyWide b c junk = none := by
  have hl := wide_loop (fun _ => 0) (fill cannyWide 1) 0 2000 0
    { map := upd (upd (Canny.borders cannyWide junk) (4002 * 1) 1) (4002 * 1 + 1 + 4000) 1, stack := [], flag := false } rfl rfl
    (by
      intro k hk
      show upd _ _ _ k = 1
      unfold upd
      rw [if_neg (by omega), if_neg (by omega)]
      exact if_pos (show k < 4002 by omega)) (by simp) (by simp) (by decide)
  have hrow : Canny.row cannyWide 1 { a := fun _ => 0, b := fill cannyWide 0, c := c, map := Canny.borders cannyWide junk, stack := [], cap := Canny.cap0 cannyWide } = none := by
    unfold Canny.row
    rw [if_neg (by decide)]
    have hg : Canny.grow 0 cannyWide.cols (Canny.cap0 cannyWide) = 1536 := by decide
    show Option.map _ (scanLoop cannyWide (Canny.grow 0 cannyWide.cols (Canny.cap0 cannyWide)) 1 (fun _ => 0) (fill cannyWide 0) (fill cannyWide 1) (2 * 2000 + 0) 0 _) = none
    rw [hg]
    exact congrArg (Option.map _) hl
  unfold canny
  show (Canny.rowLoop cannyWide 2 0 _).bind _ = none
  rw [Canny.rowLoop, Canny.row, if_pos rfl, Option.bind_some, Canny.rowLoop, hrow]; rfl

/-! ## C139: thresholds -/

theorem candidate_mono {G : Gradient} {low low' : Int} (h : low ≤ low') {p : Nat × Nat} (hc : G.Candidate low' p) : G.Candidate low p :=
  ⟨hc.1, by have := hc.2.1; omega, hc.2.2⟩

theorem isEdge_mono {G : Gradient} {low low' high high' : Int} (h : low ≤ low') (h' : high ≤ high') {p : Nat × Nat} (he : G.IsEdge low' high' p) :
    G.IsEdge low high p := by
  obtain ⟨q, h1, h2, h3⟩ := he
  refine ⟨q, candidate_mono h h1, by omega, ?_⟩
  induction h3 with
  | refl => exact ReflTransGen.refl
  | tail _ h4 ih => exact ReflTransGen.tail ih ⟨h4.1, candidate_mono h h4.2⟩

/-- **C139**.  Raising a threshold never adds a pixel to the edges: what two runs on the same gradient that differ in the thresholds report. -/
theorem C139_thresholds_partial (I : Img) (hs : ∀ i < I.rows, ∀ j < I.cols, (I.gx i j).natAbs ≤ 27145 ∧ (I.gy i j).natAbs ≤ 65535)
    (hr : I.cols + 1 ≤ max 1024 (I.rows * I.cols / 10)) {low' high' : Int} (h : I.low ≤ low') (h' : I.high ≤ high') {b c b' c' : Nat → Int}
    {junk junk' : Nat → Nat} {f f' : Nat → Nat → Nat} (hf : canny I b c junk = some f)
    (hf' : canny { I with low := low', high := high' } b' c' junk' = some f') {x y : Nat} (hx : x < I.cols) (hy : y < I.rows) (he : f' y x = 255) :
    f y x = 255 := by
  obtain ⟨g, h1, h2⟩ := canny_spec (I := I) hs hr b c junk
  obtain ⟨g', h1', h2'⟩ := canny_spec (I := { I with low := low', high := high' }) hs hr b' c' junk'
  rw [h1] at hf
  rw [h1'] at hf'
  cases hf
  cases hf'
  rw [h2' y x hx hy] at he
  rw [h2 y x hx hy, if_pos]
  by_contra hn
  rw [if_neg] at he
  · omega
  · exact fun e => hn (isEdge_mono h h' e)

example : (canny { cannyImg with low := 50, high := 130 } (fun _ => 0) (fun _ => 0) (fun _ => 0)).map (fun f => f 1 1) = some 0 ∧
    (canny cannyImg (fun _ => 0) (fun _ => 0) (fun _ => 0)).map (fun f => f 1 1) = some 255 := by decide +kernel

/-! ## C140: reuse -/

/-- **C140**.  The edge image does not depend on what earlier runs have left in the buffer. -/
theorem C140_reuse_partial (I : Img) (hs : ∀ i < I.rows, ∀ j < I.cols, (I.gx i j).natAbs ≤ 27145 ∧ (I.gy i j).natAbs ≤ 65535)
    (hr : I.cols + 1 ≤ max 1024 (I.rows * I.cols / 10)) (b c b' c' : Nat → Int) (junk junk' : Nat → Nat) :
    ∃ f f', canny I b c junk = some f ∧ canny I b' c' junk' = some f' ∧ ∀ y x, x < I.cols → y < I.rows → f y x = f' y x := by
  obtain ⟨g, h1, h2⟩ := canny_spec (I := I) hs hr b c junk
  obtain ⟨g', h1', h2'⟩ := canny_spec (I := I) hs hr b' c' junk'
  exact ⟨g, g', h1, h1', fun y x hx hy => by rw [h2 y x hx hy, h2' y x hx hy]⟩

example : (canny cannyImg (fun _ => 99) (fun _ => 77) (fun _ => 2)).map (fun f => f 1 1) =
    (canny cannyImg (fun _ => 0) (fun _ => 500) (fun _ => 0)).map (fun f => f 1 1) := by decide +kernel

/-! ## C141: dark on bright and bright on dark -/

/-- The gradient of the inverted image. -/
def Neg (G G' : Gradient) : Prop :=
  G'.w = G.w ∧ G'.h = G.h ∧ G'.mag = G.mag ∧ (∀ x y, G'.dx x y = -G.dx x y) ∧ ∀ x y, G'.dy x y = -G.dy x y

theorem ridge_neg {G G' : Gradient} (h : Neg G G') (x y : Nat) : G'.Ridge x y ↔ G.Ridge x y := by
  obtain ⟨h1, h2, h3, h4, h5⟩ := h
  have he : ∀ u v, G'.ext u v = G.ext u v := by
    intro u v
    unfold Gradient.ext
    rw [h1, h2, h3]
  unfold Gradient.Ridge
  simp only [he, h3, h4, h5, Int.natAbs_neg]
  by_cases a : 32768 * (G.dy x y).natAbs < 13573 * (G.dx x y).natAbs
  · rw [if_pos a, if_pos a]
  · rw [if_neg a, if_neg a]
    by_cases a' : 79109 * (G.dx x y).natAbs < 32768 * (G.dy x y).natAbs
    · rw [if_pos a', if_pos a']
    · rw [if_neg a', if_neg a']
      have e : ((-G.dx x y < 0) ↔ (-G.dy x y < 0)) ↔ ((G.dx x y < 0) ↔ (G.dy x y < 0)) := by omega
      by_cases a'' : (G.dx x y < 0) ↔ (G.dy x y < 0)
      · rw [if_pos a'', if_pos (e.2 a'')]
      · rw [if_neg a'', if_neg (fun h => a'' (e.1 h))]

theorem isEdge_neg {G G' : Gradient} (h : Neg G G') (low high : Int) (p : Nat × Nat) (he : G.IsEdge low high p) : G'.IsEdge low high p := by
  have hc : ∀ q, G.Candidate low q → G'.Candidate low q := fun q hq =>
    ⟨by rw [h.1, h.2.1]; exact hq.1, by rw [h.2.2.1]; exact hq.2.1, (ridge_neg h _ _).2 hq.2.2⟩
  obtain ⟨q, h1, h2, h3⟩ := he
  refine ⟨q, hc q h1, by rw [h.2.2.1]; exact h2, ?_⟩
  induction h3 with
  | refl => exact ReflTransGen.refl
  | tail _ h4 ih => exact ReflTransGen.tail ih ⟨by rw [h.1, h.2.1]; exact h4.1, hc _ h4.2⟩

/-- **C141**.  Inverting the gray levels, which changes the sign of the gradient, does not change the edges. -/
theorem C141_inverted_partial (I : Img) (hs : ∀ i < I.rows, ∀ j < I.cols, (I.gx i j).natAbs ≤ 27145 ∧ (I.gy i j).natAbs ≤ 65535)
    (hr : I.cols + 1 ≤ max 1024 (I.rows * I.cols / 10)) (b c b' c' : Nat → Int) (junk junk' : Nat → Nat) :
    ∃ f f', canny I b c junk = some f ∧
      canny { I with gx := fun i j => -I.gx i j, gy := fun i j => -I.gy i j } b' c' junk' = some f' ∧
      ∀ y x, x < I.cols → y < I.rows → f y x = f' y x := by
  have hn : Neg I.grad ({ I with gx := fun i j => -I.gx i j, gy := fun i j => -I.gy i j } : Img).grad :=
    ⟨rfl, rfl, rfl, fun _ _ => rfl, fun _ _ => rfl⟩
  have hn' : Neg ({ I with gx := fun i j => -I.gx i j, gy := fun i j => -I.gy i j } : Img).grad I.grad :=
    ⟨rfl, rfl, rfl, fun x y => (Int.neg_neg (I.gx y x)).symm, fun x y => (Int.neg_neg (I.gy y x)).symm⟩
  obtain ⟨g, h1, h2⟩ := canny_spec (I := I) hs hr b c junk
  obtain ⟨g', h1', h2'⟩ := canny_spec (I := { I with gx := fun i j => -I.gx i j, gy := fun i j => -I.gy i j })
    (fun i hi j hj => by have := hs i hi j hj; dsimp only; rw [Int.natAbs_neg, Int.natAbs_neg]; exact this) hr b' c' junk'
  refine ⟨g, g', h1, h1', fun y x hx hy => ?_⟩
  rw [h2 y x hx hy, h2' y x hx hy]
  by_cases he : I.grad.IsEdge I.low I.high (x, y)
  · rw [if_pos he, if_pos (isEdge_neg hn _ _ _ he)]
  · rw [if_neg he, if_neg (fun e => he (isEdge_neg hn' _ _ _ e))]

end Verif.Props
