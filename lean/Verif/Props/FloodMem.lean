import Verif.Proof.Process
import Verif.Props.Flood

/-!
# Properties C01, C04 (on memory), C06, C07, C17, C46

`pass w h img gm fromMin hsize n b ls` is `make_tree_patch` on the buffers `b` (packed words, heap
array of `hsize` cells, 257 stack pointers) with `m_level_size = ls`: `process_tree_patch` followed
by `n` steps of the flooding loop.
-/

namespace Verif.Props

open Verif.Spec Verif.Flood Verif.FloodMem
open scoped BigOperators

/-- Number of pixels of gray value `l`. -/
def levelCount (w h : Nat) (img : Nat → Nat → Nat) (gm l : Nat) : Nat :=
  ((pixels w h).filter (fun p => img p.1 p.2 ^^^ gm = l)).card

/-- Where the slice of level `l` starts, counted from the slice of level 0: one cell for each
pixel and one sentinel for each of the levels below. -/
def sliceStart (w h : Nat) (img : Nat → Nat → Nat) (gm l : Nat) : Nat :=
  ∑ k ∈ Finset.range l, (levelCount w h img gm k + 1)

/-- The region tree read from the memory left by a pass: the label of a pixel is its packed word
minus the boundary value. -/
def memTree (w : Nat) (ms : MSt) : RegionTree (Nat × Nat) Nat where
  isReg := fun r => r < ms.nreg
  lab := fun p => labelOf ms.words (idx w p.1 p.2)
  gray := fun r => (ms.regs r).gray
  parent := fun r => (ms.regs r).parent
  size := fun r => (ms.regs r).size

/-- Buffers with nothing in them. -/
def emptyBuf : Buf := ⟨fun _ => 0, fun _ => none, fun _ => 0⟩

variable {w h : Nat} {img : Nat → Nat → Nat} {gm : Nat}

theorem offset_eq (l : Nat) : offset (histOf (gridPatch w h img gm)) l = sliceStart w h img gm l := by
  induction l with
  | zero => rfl
  | succ l ih =>
    rw [offset, ih, sliceStart, sliceStart, Finset.sum_range_succ, histOf_grid]; rfl

/-! ### First pass -/

section
variable {fromMin : Bool} {hsize n : Nat} {b : Buf} {ls : Nat → Nat} {ms : MSt}

/-- **C06** (dark pass) At every moment of the flooding the stack pointer of every level lies in
that level's own slice – between its sentinel and the last of as many cells as there are pixels of
that gray value – and no cell of the shared array outside this patch's `w·h + 257` cells has
changed. -/
theorem C06_stack_pointers_in_slices (hI : ImageOK w h img 0) (hc : w * h ≤ 2 ^ 29)
    (hsz : b.top 0 + (w * h + 257) ≤ hsize)
    (hr : pass w h img 0 fromMin hsize n b ls = .next ms) :
    (∀ l ≤ 256, b.top 0 + sliceStart w h img 0 l ≤ ms.top l ∧
      ms.top l ≤ b.top 0 + sliceStart w h img 0 l + levelCount w h img 0 l ∧
      ms.top l < b.top 0 + (w * h + 257)) ∧
    ∀ a, a < b.top 0 ∨ b.top 0 + (w * h + 257) ≤ a → ms.heap a = b.heap a := by
  have hP := ok_of hI
  have hcard := gridPatch_card (w := w) (h := h) (img := img) (gm := 0)
  have ht := offset_total hP
  obtain ⟨s, cs, F, _, hInv, hS⟩ := pass_next hP rfl (by rw [hcard]; exact hsz) (by omega)
    (first_ready w h img fromMin b ls) hr
  constructor
  · intro l hl
    have h1 := hS.lay.top l hl
    have h2 := hInv.core.len_le l
    have h3 := histOf_grid w h img 0 l
    rw [offset_eq] at h1
    refine ⟨by omega, by unfold levelCount; omega, ?_⟩
    rw [← offset_eq] at h1
    have := offset_lt (hist := histOf (gridPatch w h img 0)) (show l < 257 by omega)
    omega
  · intro a ha
    rw [hS.frame a (by omega)]
    simp only [processTreePatch, true_or, if_true, prepareFirst]
    refine setHeap_frame (P := gridPatch w h img 0) (fun l _ => by rw [hist_first]) ?_
    simp only; omega

/-- **C06** (dark pass) The only undefined behaviour a pass can meet is the overrun of the
component stack (C08): never a heap access outside the array, never a read of a missing entry. -/
theorem C06_heap_never_out_of_bounds (hI : ImageOK w h img 0) (hc : w * h ≤ 2 ^ 29)
    (hsz : b.top 0 + (w * h + 257) ≤ hsize) (hg : grayCount w h img 0 < 256) :
    pass w h img 0 fromMin hsize n b ls ≠ .ub := by
  intro hu
  have hcard := gridPatch_card (w := w) (h := h) (img := img) (gm := 0)
  exact C08_stack_fits_partial hI hg n
    (pass_ub (ok_of hI) rfl (by rw [hcard]; exact hsz) (by omega) (first_ready w h img fromMin b ls) hu)

/-- **C06** The cells of `m_points` looked at are inside the padded array. -/
theorem C06_neighbours_in_array {i k : Nat} (hi : i ∈ (gridPatch w h img gm).px) (hk1 : 1 ≤ k)
    (hk4 : k ≤ 4) : w + 2 < i ∧ nb4 w i k < (w + 2) * (h + 2) := by
  obtain ⟨x, y, hx, hy, rfl⟩ := mem_px.1 hi
  have h1 : (y + 1) * (w + 2) ≤ h * (w + 2) := Nat.mul_le_mul_right _ (by omega)
  have h2 : (w + 2) * (h + 2) = h * (w + 2) + (w + 2) + (w + 2) := by ring
  have h3 : 1 * (w + 2) ≤ (y + 1) * (w + 2) := Nat.mul_le_mul_right _ (by omega)
  have : k = 1 ∨ k = 2 ∨ k = 3 ∨ k = 4 := by omega
  rcases this with rfl | rfl | rfl | rfl <;> simp only [nb4, idx] <;> omega

theorem isTree_congr {adj : Nat × Nat → Nat × Nat → Prop} {g : Nat × Nat → Nat}
    {px : Finset (Nat × Nat)} {T T' : RegionTree (Nat × Nat) Nat} (hT : IsComponentTree adj g px T)
    (h1 : ∀ p ∈ px, T'.lab p = T.lab p) (h2 : T'.isReg = T.isReg) (h3 : T'.gray = T.gray)
    (h4 : T'.parent = T.parent) (h5 : T'.size = T.size) : IsComponentTree adj g px T' := by
  obtain ⟨isReg', lab', gray', parent', size'⟩ := T'
  obtain ⟨isReg, lab, gray, parent, size⟩ := T
  simp only at h1 h2 h3 h4 h5
  subst h2 h3 h4 h5
  have hU : ∀ p ∈ px, ∀ r, RegionTree.Under ⟨isReg', lab', gray', parent', size'⟩ r p ↔
      RegionTree.Under ⟨isReg', lab, gray', parent', size'⟩ r p := by
    intro p hp r; simp only [RegionTree.Under, h1 p hp]
  refine ⟨?_, ?_, ?_, hT.parent_reg, ?_, ?_⟩
  · intro p hp; simp only [h1 p hp]; exact hT.lab_reg p hp
  · intro p hp; simp only [h1 p hp]; exact hT.lab_gray p hp
  · intro r hr
    obtain ⟨p, hp, e⟩ := hT.reg_lab r hr
    exact ⟨p, hp, by simp only [h1 p hp]; exact e⟩
  · intro r hr p hp hu q hq
    rw [hU q hq]
    exact hT.comp r hr p hp ((hU p hp r).1 hu) q hq
  · intro r hr s hs
    refine hT.size_eq r hr s (fun p => ?_)
    rw [hs p]
    constructor
    · rintro ⟨a, c⟩; exact ⟨a, (hU p a r).1 c⟩
    · rintro ⟨a, c⟩; exact ⟨a, (hU p a r).2 c⟩

theorem memTree_isTree (hI : ImageOK w h img gm) {s : St}
    {h0 : Nat → Option Nat} {base : Nat} {m : Nat}
    (hd : Flood.run (gridPatch w h img gm) m (Flood.init (gridPatch w h img gm)) = .done s)
    (hS : Sim (gridPatch w h img gm).px h0 (histOf (gridPatch w h img gm)) base ms s
      (gridPatch w h img gm).px) :
    IsComponentTree (Adj4 w h) (fun p => img p.1 p.2 ^^^ gm) (pixels w h) (memTree w ms) := by
  refine isTree_congr (C01_flood_builds_component_tree hI hd) ?_ ?_ ?_ ?_ ?_
  · intro p hp
    have hp' := mem_pixels.1 hp
    show labelOf ms.words (idx w p.1 p.2) = s.lab (idx w p.1 p.2)
    rw [labelOf, done_words hS, if_pos (mem_px.2 ⟨p.1, p.2, hp'.1, hp'.2, rfl⟩)]
    omega
  · simp only [memTree, gridTree, hS.nreg]
  · simp only [memTree, gridTree, hS.regs]
  · simp only [memTree, gridTree, hS.regs]
  · simp only [memTree, gridTree, hS.regs]

/-- **C01** (on memory, dark pass) The packed words and region records left behind by a pass
describe the component tree of the patch. -/
theorem C01_memory_holds_component_tree (hI : ImageOK w h img 0) (hc : w * h ≤ 2 ^ 29)
    (hsz : b.top 0 + (w * h + 257) ≤ hsize)
    (hr : pass w h img 0 fromMin hsize n b ls = .done ms) :
    IsComponentTree (Adj4 w h) (fun p => img p.1 p.2) (pixels w h) (memTree w ms) := by
  have hcard := gridPatch_card (w := w) (h := h) (img := img) (gm := 0)
  obtain ⟨s, c, h1, _, h3⟩ := pass_done (ok_of hI) rfl (by rw [hcard]; exact hsz) (by omega)
    (first_ready w h img fromMin b ls) hr
  have := memTree_isTree hI h1 h3
  simpa using this

/-- **C04** (on memory, dark pass) The pass completes. -/
theorem C04_pass_completes (hI : ImageOK w h img 0) (hc : w * h ≤ 2 ^ 29)
    (hsz : b.top 0 + (w * h + 257) ≤ hsize) (hg : grayCount w h img 0 < 256) :
    ∃ ms, pass w h img 0 fromMin hsize (5 * (w * h)) b ls = .done ms := by
  have hcard := gridPatch_card (w := w) (h := h) (img := img) (gm := 0)
  obtain ⟨⟨s, hs⟩, _⟩ := C04_exact_step_count hI hg
  exact pass_of_done (ok_of hI) rfl (by rw [hcard]; exact hsz) (by omega)
    (first_ready w h img fromMin b ls) hs

/-- The sample image meets the hypotheses of this section; 263 = 3·2 + 257. -/
example : (∃ m, pass 3 2 sampleImg 0 true 263 30 emptyBuf (fun _ => 0) = .done m) ∧
    pass 3 2 sampleImg 0 true 263 7 emptyBuf (fun _ => 0) ≠ .ub := by
  have hI : ImageOK 3 2 sampleImg 0 :=
    ⟨by decide, by decide, fun x y _ _ => by unfold sampleImg; split <;> [skip; split] <;> decide, by decide⟩
  exact ⟨C04_pass_completes hI (by decide) (by decide) (by decide),
    C06_heap_never_out_of_bounds hI (by decide) (by decide) (by decide)⟩

/-- **C07** After a completed pass every stack pointer is back at its level's sentinel, the sentinel
is null, and the padding still carries the boundary value. -/
theorem C07_pointers_restored (hI : ImageOK w h img 0) (hc : w * h ≤ 2 ^ 29)
    (hsz : b.top 0 + (w * h + 257) ≤ hsize)
    (hr : pass w h img 0 fromMin hsize n b ls = .done ms) :
    (∀ l ≤ 256, ms.top l = b.top 0 + sliceStart w h img 0 l ∧ ms.heap (ms.top l) = none) ∧
    ∀ i, i ∉ (gridPatch w h img 0).px → ms.words i = boundaryPixel := by
  have hcard := gridPatch_card (w := w) (h := h) (img := img) (gm := 0)
  obtain ⟨s, c, h1, h2, h3⟩ := pass_done (ok_of hI) rfl (by rw [hcard]; exact hsz) (by omega)
    (first_ready w h img fromMin b ls) hr
  refine ⟨fun l hl => ?_, fun i hi => h3.pack.out i hi⟩
  have := done_heap h2 h3 hl
  rw [offset_eq] at this
  exact this

end

/-! ### Second pass -/

section
variable {hsize n1 n : Nat} {b : Buf} {ls : Nat → Nat} {m1 ms : MSt}

/-- Image with every gray value `v` replaced by `255 - v`. -/
def invert (img : Nat → Nat → Nat) (x y : Nat) : Nat := 255 - img x y

theorem ImageOK.to255 (hI : ImageOK w h img 0) : ImageOK w h img 255 :=
  ⟨hI.w_pos, hI.h_pos, hI.img_lt, by decide⟩

theorem ImageOK.inv (hI : ImageOK w h img 0) : ImageOK w h (invert img) 0 :=
  ⟨hI.w_pos, hI.h_pos, fun x y _ _ => by unfold invert; omega, by decide⟩

theorem second_start (hI : ImageOK w h img 0) (hc : w * h ≤ 2 ^ 29)
    (hsz : b.top 0 + (w * h + 257) ≤ hsize)
    (hr : pass w h img 0 true hsize n1 b ls = .done m1) :
    m1.top 0 = b.top 0 ∧ Ready (gridPatch w h img 255) (b.top 0)
      (processTreePatch w h img 255 true m1.toBuf (levelSizes w h img)).1 := by
  obtain ⟨h1, h2⟩ := C07_pointers_restored hI hc hsz hr
  have h3 := (h1 0 (by omega)).1
  simp only [sliceStart, Finset.range_zero, Finset.sum_empty, Nat.add_zero] at h3
  refine ⟨h3, ?_⟩
  rw [← h3]
  exact second_ready hI.img_lt h2

/-- **C07**, **C17** The buffers prepared for the bright pass – pixels cleared, padding kept from the
dark pass, histogram reversed in place – are what a fresh dark pass over the inverted image would
prepare: same words, same stack pointers, null sentinels. -/
theorem C17_preparation_of_second_pass (hI : ImageOK w h img 0) (hc : w * h ≤ 2 ^ 29)
    (hsz : b.top 0 + (w * h + 257) ≤ hsize)
    (hr : pass w h img 0 true hsize n1 b ls = .done m1) :
    (processTreePatch w h img 255 true m1.toBuf (processTreePatch w h img 0 true b ls).2).1.words =
      (processTreePatch w h (invert img) 0 true b ls).1.words ∧
    ∀ l ≤ 256,
      (processTreePatch w h img 255 true m1.toBuf (processTreePatch w h img 0 true b ls).2).1.top l =
        (processTreePatch w h (invert img) 0 true b ls).1.top l ∧
      (processTreePatch w h img 255 true m1.toBuf (processTreePatch w h img 0 true b ls).2).1.heap
        ((processTreePatch w h (invert img) 0 true b ls).1.top l) = none := by
  have hls : (processTreePatch w h img 0 true b ls).2 = levelSizes w h img := by
    simp [processTreePatch]
  rw [hls]
  obtain ⟨_, h2⟩ := second_start hI hc hsz hr
  have h3 := first_ready w h (invert img) true b ls
  have hpx : (gridPatch w h (invert img) 0).px = (gridPatch w h img 255).px := rfl
  have hh : ∀ l, histOf (gridPatch w h (invert img) 0) l = histOf (gridPatch w h img 255) l := by
    intro l
    rw [histOf_grid, histOf_grid]
    congr 1
    apply Finset.filter_congr
    intro p hp
    rw [mem_pixels] at hp
    rw [xor_255 _ (hI.img_lt _ _ hp.1 hp.2), Nat.xor_zero]; rfl
  constructor
  · funext i
    by_cases e : i ∈ (gridPatch w h img 255).px
    · rw [h2.words_px i e, h3.words_px i (by rw [hpx]; exact e)]
    · rw [h2.words_out i e, h3.words_out i (by rw [hpx]; exact e)]
  · intro l hl
    have e : offset (histOf (gridPatch w h (invert img) 0)) l
        = offset (histOf (gridPatch w h img 255)) l := offset_congr (fun k _ => hh k)
    have ht := h3.top l hl
    rw [e] at ht
    rw [ht]
    exact ⟨h2.top l hl, h2.sent l hl⟩

/-- **C06** (bright pass following a dark pass) Stack pointers stay in their slices and the rest of
the shared array is untouched. -/
theorem C06_stack_pointers_in_slices_second (hI : ImageOK w h img 0) (hc : w * h ≤ 2 ^ 29)
    (hsz : b.top 0 + (w * h + 257) ≤ hsize)
    (hr1 : pass w h img 0 true hsize n1 b ls = .done m1)
    (hr : pass w h img 255 true hsize n m1.toBuf (levelSizes w h img) = .next ms) :
    (∀ l ≤ 256, b.top 0 + sliceStart w h img 255 l ≤ ms.top l ∧
      ms.top l ≤ b.top 0 + sliceStart w h img 255 l + levelCount w h img 255 l) ∧
    ∀ a, a < b.top 0 ∨ b.top 0 + (w * h + 257) ≤ a → ms.heap a = m1.heap a := by
  have hI2 := hI.to255
  have hP := ok_of hI2
  have hcard := gridPatch_card (w := w) (h := h) (img := img) (gm := 255)
  have ht := offset_total hP
  obtain ⟨e0, hb⟩ := second_start hI hc hsz hr1
  obtain ⟨s, cs, F, _, hInv, hS⟩ := pass_next hP rfl (by rw [hcard]; exact hsz) (by omega) hb hr
  constructor
  · intro l hl
    have h1 := hS.lay.top l hl
    have h2 := hInv.core.len_le l
    have h3 := histOf_grid w h img 255 l
    rw [offset_eq] at h1
    exact ⟨by omega, by unfold levelCount; omega⟩
  · intro a ha
    rw [hS.frame a (by omega), processTreePatch, if_neg (by simp)]
    simp only [prepareSecond]
    refine setHeap_frame (P := gridPatch w h img 255) (fun l hl => hist_second hI.img_lt hl) ?_
    simp only [e0]; omega

/-- **C06** (bright pass following a dark pass) No heap access outside the array. -/
theorem C06_heap_never_out_of_bounds_second (hI : ImageOK w h img 0) (hc : w * h ≤ 2 ^ 29)
    (hsz : b.top 0 + (w * h + 257) ≤ hsize) (hg : grayCount w h img 255 < 256)
    (hr1 : pass w h img 0 true hsize n1 b ls = .done m1) :
    pass w h img 255 true hsize n m1.toBuf (levelSizes w h img) ≠ .ub := by
  intro hu
  have hcard := gridPatch_card (w := w) (h := h) (img := img) (gm := 255)
  obtain ⟨_, hb⟩ := second_start hI hc hsz hr1
  exact C08_stack_fits_partial hI.to255 hg n
    (pass_ub (ok_of hI.to255) rfl (by rw [hcard]; exact hsz) (by omega) hb hu)

/-- **C04** (on memory, bright pass following a dark pass) The pass completes. -/
theorem C04_second_pass_completes (hI : ImageOK w h img 0) (hc : w * h ≤ 2 ^ 29)
    (hsz : b.top 0 + (w * h + 257) ≤ hsize) (hg : grayCount w h img 255 < 256)
    (hr1 : pass w h img 0 true hsize n1 b ls = .done m1) :
    ∃ ms, pass w h img 255 true hsize (5 * (w * h)) m1.toBuf (levelSizes w h img) = .done ms := by
  have hcard := gridPatch_card (w := w) (h := h) (img := img) (gm := 255)
  obtain ⟨_, hb⟩ := second_start hI hc hsz hr1
  obtain ⟨⟨s, hs⟩, _⟩ := C04_exact_step_count hI.to255 hg
  exact pass_of_done (ok_of hI.to255) rfl (by rw [hcard]; exact hsz) (by omega) hb hs

/-- Both passes over the sample image complete; this is the case shown for the theorems of this
section. -/
example : ∃ m1 m2, pass 3 2 sampleImg 0 true 263 30 emptyBuf (fun _ => 0) = .done m1 ∧
    pass 3 2 sampleImg 255 true 263 30 m1.toBuf (levelSizes 3 2 sampleImg) = .done m2 := by
  have hI : ImageOK 3 2 sampleImg 0 :=
    ⟨by decide, by decide, fun x y _ _ => by unfold sampleImg; split <;> [skip; split] <;> decide, by decide⟩
  obtain ⟨m1, h1⟩ := C04_pass_completes (b := emptyBuf) (ls := fun _ => 0) (fromMin := true) (hsize := 263)
    hI (by decide) (by decide) (by decide)
  obtain ⟨m2, h2⟩ := C04_second_pass_completes hI (by decide) (by decide) (by decide) h1
  exact ⟨m1, m2, h1, h2⟩

/-- **C17** The bright pass that follows a dark pass leaves the component tree of the inverted
image. -/
theorem C17_bright_pass_builds_tree_of_inverted (hI : ImageOK w h img 0) (hc : w * h ≤ 2 ^ 29)
    (hsz : b.top 0 + (w * h + 257) ≤ hsize)
    (hr1 : pass w h img 0 true hsize n1 b ls = .done m1)
    (hr : pass w h img 255 true hsize n m1.toBuf (levelSizes w h img) = .done ms) :
    IsComponentTree (Adj4 w h) (fun p => img p.1 p.2 ^^^ 255) (pixels w h) (memTree w ms) ∧
    ∀ p ∈ pixels w h, img p.1 p.2 ^^^ 255 = invert img p.1 p.2 := by
  have hcard := gridPatch_card (w := w) (h := h) (img := img) (gm := 255)
  obtain ⟨_, hb⟩ := second_start hI hc hsz hr1
  obtain ⟨s, c, h1, _, h3⟩ := pass_done (ok_of hI.to255) rfl (by rw [hcard]; exact hsz) (by omega) hb hr
  refine ⟨memTree_isTree hI.to255 h1 h3, fun p hp => ?_⟩
  rw [mem_pixels] at hp
  rw [xor_255 _ (hI.img_lt _ _ hp.1 hp.2)]; rfl

/-- **C17** The bright pass computes, cell by cell and region by region, what a fresh dark pass over
the inverted image computes (in any buffers of the same size). -/
theorem C17_bright_is_dark_of_inverted (hI : ImageOK w h img 0) (hu8 : ∀ x y, img x y < 256)
    (hc : w * h ≤ 2 ^ 29) (hsz : b.top 0 + (w * h + 257) ≤ hsize)
    (hr1 : pass w h img 0 true hsize n1 b ls = .done m1)
    (hr : pass w h img 255 true hsize n m1.toBuf (levelSizes w h img) = .done ms)
    (b' : Buf) (ls' : Nat → Nat) (hsz' : b'.top 0 + (w * h + 257) ≤ hsize) :
    ∃ m', pass w h (invert img) 0 true hsize n b' ls' = .done m' ∧
      m'.words = ms.words ∧ m'.nreg = ms.nreg ∧ m'.regs = ms.regs := by
  have hcard := gridPatch_card (w := w) (h := h) (img := img) (gm := 255)
  obtain ⟨_, hb⟩ := second_start hI hc hsz hr1
  obtain ⟨s, c, h1, _, h3⟩ := pass_done (ok_of hI.to255) rfl (by rw [hcard]; exact hsz) (by omega) hb hr
  have hPP : gridPatch w h (invert img) 0 = gridPatch w h img 255 := by
    unfold gridPatch
    congr 1
    funext i
    rw [xor_255 _ (hu8 _ _), Nat.xor_zero]; rfl
  have hb' := first_ready w h (invert img) true b' ls'
  rw [hPP] at hb'
  have hsz2 : b'.top 0 + ((gridPatch w h img 255).px.card + 257) ≤ hsize := by rw [hcard]; exact hsz'
  have hp2 : (gridPatch w h img 255).px.card ≤ 2 ^ 29 := by omega
  obtain ⟨m', hm⟩ := pass_of_done (ok_of hI.to255) rfl hsz2 hp2 hb' h1
  refine ⟨m', by unfold pass; rw [hPP]; exact hm, ?_⟩
  obtain ⟨s', c', e1, _, e3⟩ := pass_done (ok_of hI.to255) rfl hsz2 hp2 hb' hm
  rw [h1] at e1
  obtain rfl : s = s' := by simpa using e1
  refine ⟨?_, by rw [e3.nreg, h3.nreg], by rw [e3.regs, h3.regs]⟩
  funext i
  rw [done_words e3, done_words h3]

end

/-! ### Bright regions only -/

section
variable {hsize : Nat} {b : Buf} {ls : Nat → Nat}

private theorem black_offset (l : Nat) : offset (levelSizes w h (fun _ _ => 0)) (l + 1) = w * h + (l + 1) := by
  have h0 : ∀ v, levelSizes w h (fun _ _ => 0) v = if v = 0 then w * h else 0 := by
    intro v
    rw [levelSizes_eq]
    by_cases e : v = 0
    · subst e; simp [pixels]
    · rw [if_neg e, Finset.card_eq_zero, Finset.filter_eq_empty_iff]
      intro p _ h2; exact e h2.symm
  induction l with
  | zero => simp [offset, h0]
  | succ l ih => rw [offset, ih, h0, if_neg (by omega)]; omega

/-- **C46** (violated) When only bright regions are extracted
(`m_from_min_max = {false, true}`), `process_tree_patch` counts the raw gray values while the flood
uses the inverted ones.  On every all-black image of at least 2×2 pixels the second push already
writes behind the heap array of the size allocated for the patch. -/
theorem C46_bright_only_overruns_heap (hw : 2 ≤ w) (hh : 2 ≤ h) :
    pass w h (fun _ _ => 0) 255 false (b.top 0 + (w * h + 257)) 4 b ls = .ub := by
  have hg : ∀ i, (gridPatch w h (fun _ _ => 0) 255).gray i = 255 := fun i => by simp [gridPatch]
  have hst : (gridPatch w h (fun _ _ => 0) 255).start = idx w 0 0 := by simp [gridPatch, idx]; omega
  have hnd : (gridPatch w h (fun _ _ => 0) 255).nd = 4 := rfl
  have hnb : ∀ i k, (gridPatch w h (fun _ _ => 0) 255).nb i k = nb4 w i k := fun _ _ => rfl
  have hm : ∀ x y, x < w → y < h → idx w x y ∈ (gridPatch w h (fun _ _ => 0) 255).px :=
    fun x y hx hy => mem_px.2 ⟨x, y, hx, hy, rfl⟩
  have hup : w + 3 - (w + 2) ∉ (gridPatch w h (fun _ _ => 0) 255).px := by
    rw [mem_px]; rintro ⟨x, y, hx, hy, e⟩
    have : 1 * (w + 2) ≤ (y + 1) * (w + 2) := Nat.mul_le_mul_right _ (by omega)
    unfold idx at e; omega
  have hleft : w + 2 ∉ (gridPatch w h (fun _ _ => 0) 255).px := by
    rw [mem_px]; rintro ⟨x, y, hx, hy, e⟩
    unfold idx at e
    rcases y with _ | y
    · omega
    · have : 2 * (w + 2) ≤ (y + 1 + 1) * (w + 2) := Nat.mul_le_mul_right _ (by omega)
      omega
  have e00 : idx w 0 0 = w + 3 := by unfold idx; omega
  have e10 : idx w 1 0 = w + 4 := by unfold idx; omega
  have e01 : idx w 0 1 = w + 3 + (w + 2) := by unfold idx; omega
  have h10 := hm 1 0 (by omega) (by omega)
  have h01 := hm 0 1 (by omega) (by omega)
  rw [e10] at h10
  rw [e01] at h01
  have hoff := black_offset (w := w) (h := h) 254
  have hbp : boundaryPixel &&& dirMask ≠ 0 := by decide
  unfold pass
  rw [processTreePatch, if_pos (by simp)]
  simp only
  -- first push
  have s1 : ∃ s, FloodMem.step (gridPatch w h (fun _ _ => 0) 255) (b.top 0 + (w * h + 257))
      (FloodMem.init (gridPatch w h (fun _ _ => 0) 255) (prepareFirst (gridPatch w h (fun _ _ => 0) 255)
        (levelSizes w h (fun _ _ => 0)) b)) = .next s ∧ s.cur = w + 3 ∧ s.curGray = 255 ∧
      s.top 255 = b.top 0 + (w * h + 256) ∧ s.words (w + 3 - (w + 2)) = boundaryPixel ∧
      s.words (w + 2) = boundaryPixel ∧ s.words (w + 3 + (w + 2)) = 0 ∧ s.nbr = 2 := by
    unfold FloodMem.step
    rw [if_pos (by show 1 <<< FloodMem.shift >>> FloodMem.shift ≤ 4; decide)]
    unfold FloodMem.tour
    simp only [FloodMem.init, hst, e00, hnb, show 1 <<< FloodMem.shift >>> FloodMem.shift = 1 by decide,
      nb4, hg]
    rw [Function.update_of_ne (by omega)]
    simp only [prepareFirst, setHeap, show w + 3 + 1 = w + 4 by omega, h10, if_true, Nat.zero_and,
      lt_irrefl, if_false, show (255 : Nat) ≤ 256 by omega, hoff]
    rw [if_pos (by omega)]
    refine ⟨_, rfl, rfl, rfl, ?_, ?_, ?_, ?_, rfl⟩
    · simp only [Function.update_self]; omega
    · simp only
      rw [Function.update_of_ne (by omega), Function.update_of_ne (by omega), if_neg hup]
    · simp only
      rw [Function.update_of_ne (by omega), Function.update_of_ne (by omega), if_neg hleft]
    · simp only
      rw [Function.update_of_ne (by omega), Function.update_of_ne (by omega), if_pos h01]
  obtain ⟨s, s1, a1, a2, a3, a4, a5, a6, a7⟩ := s1
  rw [FloodMem.run, s1]
  simp only
  rw [FloodMem.run, FloodMem.step, if_pos (by rw [a7, hnd]; omega), FloodMem.tour]
  simp only [hnb, a1, a7, nb4, a4]
  rw [if_neg hbp]
  simp only
  rw [FloodMem.run, FloodMem.step, if_pos (by simp only [hnd]; omega), FloodMem.tour]
  simp only [hnb, nb4, show w + 3 - 1 = w + 2 by omega, a5]
  rw [if_neg hbp]
  simp only
  rw [FloodMem.run, FloodMem.step, if_pos (by simp only [hnd]; omega), FloodMem.tour]
  simp only [hnb, a2, nb4, hg, a6, Nat.zero_and, if_true, lt_irrefl, if_false, a3]
  rw [if_neg (by omega)]

/-- **C46** is false: an admissible image with few gray values on which the bright-only pass has
undefined behaviour. -/
theorem C46_bright_only_false : ¬ ∀ (w h : Nat) (img : Nat → Nat → Nat) (b : Buf) (ls : Nat → Nat) (n : Nat),
    ImageOK w h img 255 → grayCount w h img 255 < 256 →
    pass w h img 255 false (b.top 0 + (w * h + 257)) n b ls ≠ .ub := by
  intro hall
  exact hall 2 2 (fun _ _ => 0) emptyBuf (fun _ => 0) 4
    ⟨by decide, by decide, fun _ _ _ _ => by decide, by decide⟩ (by decide)
    (C46_bright_only_overruns_heap (by decide) (by decide))

/-- **C46** (what holds; full statement: for every image) If the image has as many pixels of value
`v` as of value `255 - v`, for every `v`, the bright-only pass completes and leaves the component
tree of the inverted image. -/
theorem C46_bright_only_partial (hI : ImageOK w h img 255) (hc : w * h ≤ 2 ^ 29)
    (hsz : b.top 0 + (w * h + 257) ≤ hsize) (hg : grayCount w h img 255 < 256)
    (hsym : ∀ v < 256, levelCount w h img 0 v = levelCount w h img 0 (255 - v)) :
    ∃ ms, pass w h img 255 false hsize (5 * (w * h)) b ls = .done ms ∧
      IsComponentTree (Adj4 w h) (fun p => img p.1 p.2 ^^^ 255) (pixels w h) (memTree w ms) := by
  have hcard := gridPatch_card (w := w) (h := h) (img := img) (gm := 255)
  have hb : Ready (gridPatch w h img 255) (b.top 0) (processTreePatch w h img 255 false b ls).1 := by
    rw [processTreePatch, if_pos (by simp)]
    simp only [prepareFirst]
    refine setHeap_ready rfl (fun l hl => ?_) (fun i hi => by simp [hi]) (fun i hi => by simp [hi])
    rw [← hist_second hI.img_lt hl, reverseLevels_eq _ hl, hist_first, histOf_grid, histOf_grid]
    exact hsym l hl
  obtain ⟨⟨s, hs⟩, _⟩ := C04_exact_step_count hI hg
  obtain ⟨ms, hm⟩ := pass_of_done (n := 5 * (w * h)) (hsize := hsize) (ok_of hI) rfl (by rw [hcard]; exact hsz) (by omega) hb hs
  obtain ⟨s', c, h1, _, h3⟩ := pass_done (ok_of hI) rfl (by rw [hcard]; exact hsz) (by omega) hb hm
  exact ⟨ms, hm, memTree_isTree hI h1 h3⟩

/-- A 2×1 image with the values 5 and 250 meets the hypotheses. -/
example : ImageOK 2 1 (fun x _ => if x = 0 then 5 else 250) 255 ∧
    grayCount 2 1 (fun x _ => if x = 0 then 5 else 250) 255 < 256 ∧
    ∀ v < 256, levelCount 2 1 (fun x _ => if x = 0 then 5 else 250) 0 v =
      levelCount 2 1 (fun x _ => if x = 0 then 5 else 250) 0 (255 - v) :=
  ⟨⟨by decide, by decide, fun x y _ _ => by split <;> decide, by decide⟩, by decide,
    by decide +kernel⟩

end

end Verif.Props
