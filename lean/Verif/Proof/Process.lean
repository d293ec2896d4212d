import Verif.Model.Process
import Verif.Proof.FloodMem
import Verif.Proof.Grid

/-!
# Preparation of a patch establishes what the flood needs
-/

namespace Verif.FloodMem

open Verif.Flood (Patch gridPatch gridPatch_gray gridPatch_ok idx idx_inj mem_px)
open Verif.Spec (pixels mem_pixels)
open Function (update)

theorem offset_congr {f g : Nat → Nat} : ∀ {n : Nat}, (∀ l < n, f l = g l) → offset f n = offset g n
  | 0, _ => rfl
  | n + 1, h => by
    simp only [offset]
    rw [offset_congr (fun l hl => h l (by omega)), h n (by omega)]

/-! ### Histogram -/

theorem count_row (img : Nat → Nat → Nat) (y : Nat) (ls : Nat → Nat) (w v : Nat) :
    (List.range w).foldl (countPixel img y) ls v
      = ls v + ((Finset.range w).filter (fun x => img x y = v)).card := by
  induction w with
  | zero => simp
  | succ w ih =>
    rw [List.range_succ, List.foldl_append, List.foldl_cons, List.foldl_nil, countPixel,
      Finset.range_add_one, Finset.filter_insert]
    by_cases e : img w y = v
    · subst e
      rw [Function.update_self, if_pos rfl, Finset.card_insert_of_notMem (by simp), ih]; omega
    · rw [Function.update_of_ne (fun h => e h.symm), if_neg e, ih]

theorem levelSizes_eq (w h : Nat) (img : Nat → Nat → Nat) (v : Nat) :
    levelSizes w h img v = ((pixels w h).filter (fun p => img p.1 p.2 = v)).card := by
  unfold levelSizes
  induction h with
  | zero => simp [pixels]
  | succ h ih =>
    rw [List.range_succ, List.foldl_append, List.foldl_cons, List.foldl_nil, count_row, ih]
    have h1 : (pixels w (h + 1)).filter (fun p => img p.1 p.2 = v)
        = (pixels w h).filter (fun p => img p.1 p.2 = v)
          ∪ ((Finset.range w).filter (fun x => img x h = v)).image (fun x => (x, h)) := by
      ext ⟨x, y⟩
      simp only [Finset.mem_filter, mem_pixels, Finset.mem_union, Finset.mem_image, Finset.mem_range,
        Prod.mk.injEq]
      constructor
      · rintro ⟨⟨a, b⟩, c⟩
        by_cases e : y = h
        · subst e; exact .inr ⟨x, ⟨a, c⟩, rfl, rfl⟩
        · exact .inl ⟨⟨a, by omega⟩, c⟩
      · rintro (⟨⟨a, b⟩, c⟩ | ⟨x', ⟨a, c⟩, rfl, rfl⟩)
        · exact ⟨⟨a, by omega⟩, c⟩
        · exact ⟨⟨a, by omega⟩, c⟩
    rw [h1, Finset.card_union_of_disjoint, Finset.card_image_of_injective]
    · intro a b hab; simpa using hab
    · rw [Finset.disjoint_left]
      rintro ⟨x, y⟩ h2 h3
      simp only [Finset.mem_filter, mem_pixels, Finset.mem_image, Prod.mk.injEq] at h2 h3
      obtain ⟨_, _, _, rfl⟩ := h3
      omega

theorem histOf_grid (w h : Nat) (img : Nat → Nat → Nat) (gm v : Nat) :
    histOf (gridPatch w h img gm) v = ((pixels w h).filter (fun p => img p.1 p.2 ^^^ gm = v)).card := by
  unfold histOf
  have : (gridPatch w h img gm).px.filter (fun i => (gridPatch w h img gm).gray i = v)
      = ((pixels w h).filter (fun p => img p.1 p.2 ^^^ gm = v)).image (fun p => idx w p.1 p.2) := by
    ext i
    simp only [Finset.mem_filter, Finset.mem_image, Prod.exists, mem_pixels]
    constructor
    · rintro ⟨h1, h2⟩
      obtain ⟨x, y, hx, hy, rfl⟩ := mem_px.1 h1
      rw [gridPatch_gray hx] at h2
      exact ⟨x, y, ⟨⟨hx, hy⟩, h2⟩, rfl⟩
    · rintro ⟨x, y, ⟨⟨hx, hy⟩, h2⟩, rfl⟩
      exact ⟨mem_px.2 ⟨x, y, hx, hy, rfl⟩, by rw [gridPatch_gray hx]; exact h2⟩
  rw [this, Finset.card_image_of_injOn]
  rintro ⟨x, y⟩ h1 ⟨x', y'⟩ h2 h3
  simp [mem_pixels] at h1 h2 h3
  obtain ⟨rfl, rfl⟩ := idx_inj (by omega) (by omega) h3
  rfl

theorem hist_first (w h : Nat) (img : Nat → Nat → Nat) :
    levelSizes w h img = histOf (gridPatch w h img 0) := by
  funext v; rw [levelSizes_eq, histOf_grid]; simp

/-- The partially done swapping loop. -/
theorem swap_upto (ls : Nat → Nat) : ∀ n ≤ 128, ∀ v, (List.range n).foldl swapStep ls v
    = if v < n ∨ (255 - n < v ∧ v ≤ 255) then ls (255 - v) else ls v
  | 0, _, v => by
    simp only [List.range_zero, List.foldl_nil]
    rw [if_neg (by omega)]
  | n + 1, hn, v => by
    have ih := swap_upto ls n (by omega)
    rw [List.range_succ, List.foldl_append, List.foldl_cons, List.foldl_nil, swapStep]
    by_cases e1 : v = 255 - n
    · subst e1
      rw [Function.update_self, if_pos (by omega), ih, if_neg (by omega)]
      congr 1; omega
    · rw [Function.update_of_ne e1]
      by_cases e2 : v = n
      · subst e2
        rw [Function.update_self, if_pos (by omega), ih, if_neg (by omega)]
      · rw [Function.update_of_ne e2, ih]
        by_cases e3 : v < n ∨ (255 - n < v ∧ v ≤ 255)
        · rw [if_pos e3, if_pos (by omega)]
        · rw [if_neg e3, if_neg (by omega)]

theorem reverseLevels_eq (ls : Nat → Nat) {v : Nat} (hv : v < 256) :
    reverseLevels ls v = ls (255 - v) := by
  unfold reverseLevels
  rw [swap_upto ls 128 (by omega), if_pos (by omega)]

theorem xor_255 : ∀ v < 256, v ^^^ 255 = 255 - v := by decide +kernel

theorem hist_second {w h : Nat} {img : Nat → Nat → Nat} (hi : ∀ x y, x < w → y < h → img x y < 256)
    {v : Nat} (hv : v < 256) :
    reverseLevels (levelSizes w h img) v = histOf (gridPatch w h img 255) v := by
  rw [reverseLevels_eq _ hv, levelSizes_eq, histOf_grid]
  congr 1
  apply Finset.filter_congr
  intro p hp
  rw [mem_pixels] at hp
  have h1 := hi p.1 p.2 hp.1 hp.2
  rw [xor_255 _ h1]
  omega

/-! ### Ready -/

theorem setHeap_ready {P : Patch} {b : Buf} {hist : Nat → Nat} {base : Nat} (hb : b.top 0 = base)
    (hh : ∀ l < 256, hist l = histOf P l) (h1 : ∀ i ∈ P.px, b.words i = 0)
    (h2 : ∀ i, i ∉ P.px → b.words i = boundaryPixel) : Ready P base (setHeap hist b) where
  words_px := h1
  words_out := h2
  top := by
    intro l hl
    subst hb
    simp only [setHeap, hl, if_true]
    rw [offset_congr (fun k hk => hh k (by omega))]
  sent := by
    intro l hl
    subst hb
    simp only [setHeap]
    rw [if_pos]
    rw [List.mem_map]
    exact ⟨l, by simp; omega, by rw [offset_congr (fun k hk => hh k (by omega))]⟩

/-- Cells of the heap array outside the patch's own slice are not written by the preparation. -/
theorem setHeap_frame {P : Patch} {b : Buf} {hist : Nat → Nat}
    (hh : ∀ l < 256, hist l = histOf P l) {a : Nat}
    (ha : a < b.top 0 ∨ b.top 0 + offset (histOf P) 257 ≤ a) : (setHeap hist b).heap a = b.heap a := by
  simp only [setHeap]
  rw [if_neg]
  rw [List.mem_map]
  rintro ⟨l, hl, rfl⟩
  simp only [List.mem_range] at hl
  have h1 : offset hist l = offset (histOf P) l := offset_congr (fun k hk => hh k (by omega))
  have := offset_lt (hist := histOf P) (show l < 257 by omega); omega

theorem first_ready (w h : Nat) (img : Nat → Nat → Nat) (fromMin : Bool) (b : Buf) (ls : Nat → Nat) :
    Ready (gridPatch w h img 0) (b.top 0) (processTreePatch w h img 0 fromMin b ls).1 := by
  simp only [processTreePatch, true_or, if_true, prepareFirst]
  refine setHeap_ready rfl (fun l _ => by rw [hist_first]) ?_ ?_
  · intro i hi; simp [hi]
  · intro i hi; simp [hi]

theorem second_ready {w h : Nat} {img : Nat → Nat → Nat} (hi : ∀ x y, x < w → y < h → img x y < 256)
    {b : Buf} (hb : ∀ i, i ∉ (gridPatch w h img 0).px → b.words i = boundaryPixel) :
    Ready (gridPatch w h img 255) (b.top 0)
      (processTreePatch w h img 255 true b (levelSizes w h img)).1 := by
  rw [processTreePatch, if_neg (by simp)]
  simp only [prepareSecond]
  refine setHeap_ready rfl (fun l hl => hist_second hi hl) ?_ ?_
  · intro i hi; simp [hi]
  · intro i hi; simp only [hi, if_false]; exact hb i hi

/-! ### Whole passes -/

section
variable {P : Patch} {base hsize n : Nat} {b : Buf}

theorem pass_sim (hP : P.OK) (hnd : P.nd = 4) (hsz : base + (P.px.card + 257) ≤ hsize)
    (hcard : P.px.card ≤ 2 ^ 29) (hb : Ready P base b) (n : Nat) :
    ∃ F', OutSim P.px b.heap (histOf P) base F' (Flood.run P n (Flood.init P)) (run P hsize n (init P b)) ∧
      (∀ s', Flood.run P n (Flood.init P) = .next s' → ∃ cs', Flood.Inv P s' cs' F') ∧
      (∀ s', Flood.run P n (Flood.init P) = .done s' → F' = P.px) := by
  have ht := offset_total hP
  exact sim_run hP hnd (by omega) hcard n (Flood.inv_init hP) (sim_init hnd hP.start_mem hb)

theorem pass_next (hP : P.OK) (hnd : P.nd = 4) (hsz : base + (P.px.card + 257) ≤ hsize)
    (hcard : P.px.card ≤ 2 ^ 29) (hb : Ready P base b) {ms : MSt}
    (hr : run P hsize n (init P b) = .next ms) :
    ∃ s cs F, Flood.run P n (Flood.init P) = .next s ∧ Flood.Inv P s cs F ∧
      Sim P.px b.heap (histOf P) base ms s F := by
  obtain ⟨F, h1, h2, _⟩ := pass_sim hP hnd hsz hcard hb n
  rw [hr] at h1
  revert h1 h2
  cases Flood.run P n (Flood.init P) with
  | next s => intro h1 h2; obtain ⟨cs, h3⟩ := h2 s rfl; exact ⟨s, cs, F, rfl, h3, h1⟩
  | done s => intro h1 _; exact absurd h1 id
  | ub => intro h1 _; exact absurd h1 id

theorem pass_done (hP : P.OK) (hnd : P.nd = 4) (hsz : base + (P.px.card + 257) ≤ hsize)
    (hcard : P.px.card ≤ 2 ^ 29) (hb : Ready P base b) {ms : MSt}
    (hr : run P hsize n (init P b) = .done ms) :
    ∃ s c, Flood.run P n (Flood.init P) = .done s ∧ Flood.Final P s c ∧
      Sim P.px b.heap (histOf P) base ms s P.px := by
  obtain ⟨F, h1, _, h3⟩ := pass_sim hP hnd hsz hcard hb n
  have h4 := Flood.run_inv hP n (Flood.inv_init hP)
  rw [hr] at h1
  revert h1 h3 h4
  cases Flood.run P n (Flood.init P) with
  | next s => intro h1 _ _; exact absurd h1 id
  | done s =>
    intro h1 h3 h4
    obtain ⟨⟨c, hc⟩, _⟩ := h4
    have := h3 s rfl
    subst this
    exact ⟨s, c, rfl, hc, h1⟩
  | ub => intro h1 _; exact absurd h1 id

theorem pass_of_done (hP : P.OK) (hnd : P.nd = 4) (hsz : base + (P.px.card + 257) ≤ hsize)
    (hcard : P.px.card ≤ 2 ^ 29) (hb : Ready P base b) {s : Flood.St}
    (hr : Flood.run P n (Flood.init P) = .done s) :
    ∃ ms, run P hsize n (init P b) = .done ms := by
  obtain ⟨F, h1, _⟩ := pass_sim hP hnd hsz hcard hb n
  rw [hr] at h1
  revert h1
  cases run P hsize n (init P b) with
  | next s => intro h1; exact absurd h1 id
  | done s => intro h1; exact ⟨s, rfl⟩
  | ub => intro h1; exact absurd h1 id

theorem pass_ub (hP : P.OK) (hnd : P.nd = 4) (hsz : base + (P.px.card + 257) ≤ hsize)
    (hcard : P.px.card ≤ 2 ^ 29) (hb : Ready P base b)
    (hr : run P hsize n (init P b) = .ub) : Flood.run P n (Flood.init P) = .ub := by
  obtain ⟨F, h1, _⟩ := pass_sim hP hnd hsz hcard hb n
  rw [hr] at h1
  revert h1
  cases Flood.run P n (Flood.init P) with
  | next s => intro h1; exact absurd h1 id
  | done s => intro h1; exact absurd h1 id
  | ub => intro _; rfl

/-- Stack pointers and sentinels after a completed pass. -/
theorem done_heap {ms : MSt} {s : Flood.St} {c : Flood.Comp} {h0 : Nat → Option Nat}
    (hF : Flood.Final P s c) (hS : Sim P.px h0 (histOf P) base ms s P.px) {l : Nat} (hl : l ≤ 256) :
    ms.top l = base + offset (histOf P) l ∧ ms.heap (ms.top l) = none := by
  have h1 := hS.lay.top l hl
  have h2 := hS.lay.stk l hl
  rw [hF.heap l] at h1 h2
  simp only [List.length_nil, Nat.add_zero] at h1
  exact ⟨h1, by rw [h1]; exact h2⟩

/-- The words after a completed pass. -/
theorem done_words {ms : MSt} {s : Flood.St} {h0 : Nat → Option Nat}
    (hS : Sim P.px h0 (histOf P) base ms s P.px) (i : Nat) :
    ms.words i = if i ∈ P.px then boundaryPixel + s.lab i else boundaryPixel := by
  by_cases e : i ∈ P.px
  · rw [if_pos e]; exact hS.pack.lab i e
  · rw [if_neg e]; exact hS.pack.out i e

end

end Verif.FloodMem
