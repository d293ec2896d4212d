import Verif.Proof.Merge
import Verif.Proof.Alloc
import Verif.Proof.Same

/-!
# Properties C12, C14, C15: several threads
-/

namespace Verif.Props

open Verif.Spec Verif.Partition
open Verif.FloodMem (pass Buf MSt levelSizes)
open Verif.Connect (World)

variable {w h n hp vp : Nat}

/-! ### C14 -/

theorem layoutV1_cases (hl : layoutV1 n = some (hp, vp)) : n = hp * vp ∧ 1 ≤ hp ∧ 1 ≤ vp ∧
    (pinfos hp vp w h) = (List.range n).map (pinfo hp vp w h) := by
  unfold layoutV1 at hl
  split at hl <;> simp at hl <;> (obtain ⟨rfl, rfl⟩ := hl; exact ⟨rfl, by decide, by decide, rfl⟩)

theorem layoutV1_of_V2 (hl : layoutV2 n = some (hp, vp)) : layoutV1 n = some (hp, vp) := by
  rcases layout_cases hl with ⟨rfl, rfl, rfl⟩ | ⟨rfl, rfl, rfl⟩ | ⟨rfl, rfl, rfl⟩ <;> rfl

/-- **C14** For every image size and every thread number of V1 (1, 2, 4, 8, 16, 32): there are as many
patches as threads, each pixel lies in exactly one of them, and no patch leaves the image. -/
theorem C14_patches_tile_image (hl : layoutV1 n = some (hp, vp)) :
    (pinfos hp vp w h).length = n ∧
    (∀ x y, x < w → y < h → ∃ (k : Nat) (P : PInfo), (pinfos hp vp w h)[k]? = some P ∧
      (P.left ≤ x ∧ x < P.left + P.width ∧ P.top ≤ y ∧ y < P.top + P.height) ∧
      ∀ (k' : Nat) (P' : PInfo), (pinfos hp vp w h)[k']? = some P' →
        (P'.left ≤ x ∧ x < P'.left + P'.width ∧ P'.top ≤ y ∧ y < P'.top + P'.height) → k' = k) ∧
    ∀ P ∈ pinfos hp vp w h, P.left + P.width ≤ w ∧ P.top + P.height ≤ h := by
  obtain ⟨hn, hhp, hvp, e⟩ := layoutV1_cases (w := w) (h := h) hl
  rw [e]
  have hget : ∀ (k : Nat) (P : PInfo), ((List.range n).map (pinfo hp vp w h))[k]? = some P ↔
      k < n ∧ P = pinfo hp vp w h k := by
    intro k P
    rw [List.getElem?_map]
    by_cases hk : k < n
    · rw [List.getElem?_range hk]; simp [hk, eq_comm]
    · rw [List.getElem?_eq_none (by simpa using hk)]; simp [hk]
  refine ⟨by simp, ?_, ?_⟩
  · intro x y hx hy
    have hpx : (x, y) ∈ pixels w h := mem_pixels.2 ⟨hx, hy⟩
    have hlt := patchOf_lt hhp hvp hpx
    refine ⟨_, _, (hget _ _).2 ⟨by rw [hn]; exact hlt, rfl⟩, (patchOf_eq hhp hvp hpx hlt).1 rfl, ?_⟩
    intro k' P' h1 h2
    obtain ⟨h3, rfl⟩ := (hget _ _).1 h1
    exact ((patchOf_eq hhp hvp hpx (by omega)).2 h2).symm
  · intro P hP
    obtain ⟨k, hk, rfl⟩ := List.mem_map.1 hP
    exact pinfo_inside hhp (by have := List.mem_range.1 hk; omega)

/-- **C14** `patchOf`, used below to say which patch a pixel is in, is the index of the patch that
contains it. -/
theorem C14_patchOf_contains (hl : layoutV1 n = some (hp, vp)) {x y : Nat} (hx : x < w) (hy : y < h) :
    ∃ P, (pinfos hp vp w h)[patchOf hp vp w h (x, y)]? = some P ∧
      P.left ≤ x ∧ x < P.left + P.width ∧ P.top ≤ y ∧ y < P.top + P.height := by
  obtain ⟨hn, hhp, hvp, e⟩ := layoutV1_cases (w := w) (h := h) hl
  have hpx : (x, y) ∈ pixels w h := mem_pixels.2 ⟨hx, hy⟩
  have hlt := patchOf_lt hhp hvp hpx
  refine ⟨pinfo hp vp w h (patchOf hp vp w h (x, y)), ?_, (patchOf_eq hhp hvp hpx hlt).1 rfl⟩
  rw [e, List.getElem?_map, List.getElem?_range (by rw [hn]; exact hlt), Option.map_some]

/-- **C14** The same for V2 (1, 4, 32 threads): its division is the one of V1. -/
theorem C14_v2_division_is_v1 (hl : layoutV2 n = some (hp, vp)) : layoutV1 n = some (hp, vp) :=
  layoutV1_of_V2 hl

/-- **C14** All patches have the size of the even division, except that the last column and the last
row of patches also take the remainder. -/
theorem C14_remainder_in_last (hl : layoutV1 n = some (hp, vp)) {c v : Nat} (hc : c < hp) (hv : v < vp) :
    (pinfos hp vp w h)[v * hp + c]? = some
      ⟨c * (w / hp), v * (h / vp), if c + 1 = hp then w / hp + w % hp else w / hp,
        if v + 1 = vp then h / vp + h % vp else h / vp⟩ := by
  obtain ⟨hn, hhp, hvp, e⟩ := layoutV1_cases (w := w) (h := h) hl
  have hlen : ∀ {m t i : Nat}, i < m → lengths m t i = if i + 1 = m then t / m + t % m else t / m := by
    intro m t i hi
    unfold lengths
    by_cases hm : i + 1 = m
    · rw [if_neg (by omega), if_pos hm, starts_eq]
      have h1 := Nat.div_add_mod t m
      have h2 : m * (t / m) = (m - 1) * (t / m) + t / m := by
        obtain ⟨j, rfl⟩ : ∃ j, m = j + 1 := ⟨m - 1, by omega⟩
        rw [Nat.succ_mul]; simp
      rw [h2] at h1
      generalize t / m = a at h1 ⊢
      generalize t % m = r at h1 ⊢
      generalize (m - 1) * a = z at h1 ⊢
      omega
    · rw [if_pos (by omega), if_neg hm]
  have hk : v * hp + c < n := by
    have h1 : (v + 1) * hp ≤ vp * hp := Nat.mul_le_mul_right _ hv
    rw [Nat.succ_mul, Nat.mul_comm vp] at h1; omega
  obtain ⟨h1, h2⟩ := patch_div (b := v) hc
  rw [e, List.getElem?_map, List.getElem?_range hk, Option.map_some]
  unfold pinfo
  rw [h1, h2, hlen hc, hlen hv, starts_eq, starts_eq]

example : layoutV1 8 = some (4, 2) ∧ (pinfos 4 2 11 5)[7]? = some ⟨6, 2, 5, 3⟩ := by decide

/-- **C06** (several patches) The slices of the shared heap array given to the patches are next to each
other, have one cell per pixel and 257 more, and end with the array; likewise the padded patches in
`m_points` and `m_extended_image`. -/
theorem C06_patch_slices_fill_arrays (hl : layoutV2 n = some (hp, vp)) :
    (∀ k < n, heapBase (pinfo hp vp w h) k + ((pinfo hp vp w h k).width * (pinfo hp vp w h k).height + 257)
        = heapBase (pinfo hp vp w h) (k + 1) ∧
      heapBase (pinfo hp vp w h) (k + 1) ≤ heapSize n w h) ∧
    heapBase (pinfo hp vp w h) n = heapSize n w h ∧
    (∀ k < n, pointBase (pinfo hp vp w h) k +
        ((pinfo hp vp w h k).width + 2) * ((pinfo hp vp w h k).height + 2)
        = pointBase (pinfo hp vp w h) (k + 1) ∧
      pointBase (pinfo hp vp w h) (k + 1) ≤ pointSize hp vp w h) ∧
    pointBase (pinfo hp vp w h) n = pointSize hp vp w h := by
  obtain ⟨_, hn, hhp, hvp⟩ := completeV2 hl
  have h1 := heapBase_total (w := w) (h := h) hhp hvp
  have h2 := pointBase_total (vp := vp) (w := w) (h := h) hhp
  rw [← hn] at h1 h2
  refine ⟨fun k hk => ⟨rfl, ?_⟩, h1, fun k hk => ⟨rfl, ?_⟩, h2⟩
  · rw [← h1]; exact heapBase_mono _ hk
  · rw [← h2]; exact pointBase_mono _ hk

/-! ### C15 -/

/-- **C15** For 1, 4 and 32 threads: a pair of pixels is joined exactly when the second is the right or
lower neighbour of the first and they lie in different patches; no pair is joined twice. -/
theorem C15_joins_are_the_cross_patch_adjacencies (hl : layoutV2 n = some (hp, vp)) (hw : hp ≤ w) (hh : vp ≤ h) :
    (joinPixels (pinfo hp vp w h) (callsV2 n)).Nodup ∧
    ∀ p q : Nat × Nat, (p, q) ∈ joinPixels (pinfo hp vp w h) (callsV2 n) ↔
      p ∈ pixels w h ∧ q ∈ pixels w h ∧ patchOf hp vp w h p ≠ patchOf hp vp w h q ∧
        ((q.1 = p.1 + 1 ∧ q.2 = p.2) ∨ (q.1 = p.1 ∧ q.2 = p.2 + 1)) := by
  obtain ⟨hC, hn, hhp, hvp⟩ := completeV2 hl
  exact ⟨nodup_joinPixels hC hhp hvp hw hh, mem_joinPixels hC hhp hvp hw hh⟩

/-- **C15** Every pair of 4-adjacent pixels in different patches occurs exactly once, in one of the two
orders. -/
theorem C15_each_adjacency_once (hl : layoutV2 n = some (hp, vp)) (hw : hp ≤ w) (hh : vp ≤ h)
    {p q : Nat × Nat} (hadj : Adj4 w h p q) (hne : patchOf hp vp w h p ≠ patchOf hp vp w h q) :
    (joinPixels (pinfo hp vp w h) (callsV2 n)).count (p, q) +
      (joinPixels (pinfo hp vp w h) (callsV2 n)).count (q, p) = 1 := by
  obtain ⟨hnd, hmem⟩ := C15_joins_are_the_cross_patch_adjacencies hl hw hh
  obtain ⟨h1, h2, h3⟩ := hadj
  by_cases hf : (q.1 = p.1 + 1 ∧ q.2 = p.2) ∨ (q.1 = p.1 ∧ q.2 = p.2 + 1)
  · rw [List.count_eq_one_of_mem hnd ((hmem p q).2 ⟨h1, h2, hne, hf⟩),
      List.count_eq_zero_of_not_mem (fun hc => by have := ((hmem q p).1 hc).2.2.2; omega)]
  · rw [List.count_eq_zero_of_not_mem (fun hc => hf ((hmem p q).1 hc).2.2.2),
      List.count_eq_one_of_mem hnd ((hmem q p).2 ⟨h2, h1, hne.symm, by omega⟩)]

/-- **C15** The words read for a join lie inside the padded array of an existing patch and belong to
pixels of that patch: column and row of the cell are between 1 and the patch's width and height. -/
theorem C15_cells_in_patches (hl : layoutV2 n = some (hp, vp)) (hw : hp ≤ w) (hh : vp ≤ h) :
    ∀ e ∈ allCells (pinfo hp vp w h) (callsV2 n), ∀ c : Cell, c = e.1 ∨ c = e.2 → c.1 < n ∧
      1 ≤ c.2 % ((pinfo hp vp w h c.1).width + 2) ∧
      c.2 % ((pinfo hp vp w h c.1).width + 2) ≤ (pinfo hp vp w h c.1).width ∧
      1 ≤ c.2 / ((pinfo hp vp w h c.1).width + 2) ∧
      c.2 / ((pinfo hp vp w h c.1).width + 2) ≤ (pinfo hp vp w h c.1).height := by
  obtain ⟨hC, hn, hhp, hvp⟩ := completeV2 hl
  intro e he c hc
  rw [allCells_eq hC, List.mem_flatMap] at he
  obtain ⟨x, hx, he⟩ := he
  obtain ⟨i, hi, rfl⟩ := List.mem_map.1 he
  obtain ⟨a1, a2, a3, a4, _⟩ := border_spec hC hhp hvp hw hh hx (List.mem_range.1 hi)
  unfold CellOk at a1 a2
  rcases hc with rfl | rfl
  · exact ⟨by omega, by omega⟩
  · exact ⟨by omega, by omega⟩

example : layoutV2 32 = some (8, 4) ∧ 8 ≤ 9 ∧ 4 ≤ 5 ∧ Adj4 9 5 (3, 2) (4, 2) ∧
    patchOf 8 4 9 5 (3, 2) ≠ patchOf 8 4 9 5 (4, 2) := by
  refine ⟨rfl, by decide, by decide, ⟨mem_pixels.2 (by decide), mem_pixels.2 (by decide), by decide⟩, by decide⟩

/-! ### C12 -/

variable {img : Nat → Nat → Nat} {fuel : Nat}

/-- The image seen by patch `k`. -/
abbrev patchImg (hp vp w h : Nat) (img : Nat → Nat → Nat) (k : Nat) : Nat → Nat → Nat :=
  subImage img (pinfo hp vp w h k)

/-- Number of joins of an image. -/
def joinCount (n hp vp w h : Nat) : Nat := (allCells (pinfo hp vp w h) (callsV2 n)).length

theorem patch_imageOK {gm : Nat} (hl : layoutV2 n = some (hp, vp)) (hw : hp ≤ w) (hh : vp ≤ h)
    (hI : ImageOK w h img gm) {k : Nat} (hk : k < n) :
    ImageOK (pinfo hp vp w h k).width (pinfo hp vp w h k).height (patchImg hp vp w h img k) gm := by
  obtain ⟨_, hn, hhp, hvp⟩ := completeV2 hl
  have hin := pinfo_inside (w := w) (h := h) hhp (by rw [← hn]; exact hk)
  exact ⟨lengths_pos hhp hw, lengths_pos hvp hh, fun x y hx hy => hI.img_lt _ _ (by omega) (by omega), hI.gm_lt⟩

theorem patch_area_le (hl : layoutV2 n = some (hp, vp)) {k : Nat} (hk : k < n) :
    (pinfo hp vp w h k).width * (pinfo hp vp w h k).height ≤ w * h := by
  obtain ⟨_, hn, hhp, _⟩ := completeV2 hl
  have hin := pinfo_inside (w := w) (h := h) hhp (by rw [← hn]; exact hk)
  exact Nat.mul_le_mul (by omega) (by omega)

theorem patch_heap_fits (hl : layoutV2 n = some (hp, vp)) {k : Nat} (hk : k < n) :
    heapBase (pinfo hp vp w h) k + ((pinfo hp vp w h k).width * (pinfo hp vp w h k).height + 257)
      ≤ heapSize n w h := by
  obtain ⟨h1, _⟩ := C06_patch_slices_fill_arrays (w := w) (h := h) hl
  have := h1 k hk; omega

section
variable {fromMin : Bool} {steps : Nat → Nat} {b : Nat → Buf} {ls : Nat → Nat → Nat} {ms : Nat → MSt}

/-- **C12** (dark regions) `n` = 1, 4 or 32 patches are flooded, each in its own slice of the shared
heap, and joined; the joins succeed and the result is the component tree of the whole image. -/
theorem C12_tree_of_whole_image (hl : layoutV2 n = some (hp, vp)) (hw : hp ≤ w) (hh : vp ≤ h)
    (hI : ImageOK w h img 0) (hc : w * h ≤ 2 ^ 29)
    (hb : ∀ k < n, (b k).top 0 = heapBase (pinfo hp vp w h) k)
    (hr : ∀ k < n, pass (pinfo hp vp w h k).width (pinfo hp vp w h k).height (patchImg hp vp w h img k) 0
      fromMin (heapSize n w h) (steps k) (b k) (ls k) = .done (ms k))
    (hf : 512 * joinCount n hp vp w h ≤ fuel) :
    ∃ W, mergeTrees n hp vp w h ms fuel 512 = some W ∧
      IsComponentTree (Adj4 w h) (fun p => img p.1 p.2) (pixels w h) (mergedTree n hp vp w h ms fuel W) := by
  have hg : ∀ p ∈ pixels w h, gval img 0 p < 256 := by
    intro p hp'
    rw [mem_pixels] at hp'
    simpa [gval] using hI.img_lt _ _ hp'.1 hp'.2
  have := merge_main (gm := 0) (fuel := fuel) (ms := ms) hl hw hh hg (fun k hk => ?_) hf
  · have e : gval img 0 = fun p => img p.1 p.2 := by funext p; simp [gval]
    rw [e] at this; exact this
  · have := C01_memory_holds_component_tree (patch_imageOK hl hw hh hI hk)
      (le_trans (patch_area_le hl hk) hc) (by rw [hb k hk]; exact patch_heap_fits hl hk) (hr k hk)
    simpa using this

/-- **C12** (dark regions) The tree built with `n` threads is the tree built with one thread: the same
components, labels, gray levels, sizes and parents. -/
theorem C12_same_as_single_thread (hl : layoutV2 n = some (hp, vp)) (hw : hp ≤ w) (hh : vp ≤ h)
    (hI : ImageOK w h img 0) (hc : w * h ≤ 2 ^ 29)
    (hb : ∀ k < n, (b k).top 0 = heapBase (pinfo hp vp w h) k)
    (hr : ∀ k < n, pass (pinfo hp vp w h k).width (pinfo hp vp w h k).height (patchImg hp vp w h img k) 0
      fromMin (heapSize n w h) (steps k) (b k) (ls k) = .done (ms k))
    (hf : 512 * joinCount n hp vp w h ≤ fuel)
    {steps1 : Nat} {b1 : Buf} {ls1 : Nat → Nat} {m1 : MSt} (hb1 : b1.top 0 = 0)
    (hr1 : pass w h img 0 fromMin (heapSize 1 w h) steps1 b1 ls1 = .done m1) :
    ∃ W f, mergeTrees n hp vp w h ms fuel 512 = some W ∧
      SameTree (pixels w h) (memTree w m1) (mergedTree n hp vp w h ms fuel W) f := by
  obtain ⟨W, h1, h2⟩ := C12_tree_of_whole_image hl hw hh hI hc hb hr hf
  have h3 := C01_memory_holds_component_tree hI hc
    (by rw [hb1]; unfold heapSize; rw [Nat.mul_comm h w]; omega) hr1
  have hne : (pixels w h).Nonempty := ⟨(0, 0), mem_pixels.2 ⟨hI.w_pos, hI.h_pos⟩⟩
  obtain ⟨f, hf⟩ := h3.same h2 hne
  exact ⟨W, f, h1, hf⟩

/-- A patch has no more different gray values than the image. -/
theorem patch_grayCount (hl : layoutV2 n = some (hp, vp)) {gm k : Nat} (hk : k < n) :
    grayCount (pinfo hp vp w h k).width (pinfo hp vp w h k).height (patchImg hp vp w h img k) gm
      ≤ grayCount w h img gm := by
  obtain ⟨_, hn, hhp, hvp⟩ := completeV2 hl
  have hin := pinfo_inside (w := w) (h := h) hhp (by rw [← hn]; exact hk)
  refine Finset.card_le_card ?_
  intro v hv
  obtain ⟨p, hp', rfl⟩ := Finset.mem_image.1 hv
  rw [mem_pixels] at hp'
  refine Finset.mem_image.2 ⟨((pinfo hp vp w h k).left + p.1, (pinfo hp vp w h k).top + p.2), ?_, rfl⟩
  rw [mem_pixels]; simp only; omega

/-- **C12** (dark regions) For every image with fewer than 256 different gray values (see C08) the whole
construction runs to its end: all patches are flooded, all joins are made, and the tree is the one a
single thread builds. -/
theorem C12_runs_to_completion (hl : layoutV2 n = some (hp, vp)) (hw : hp ≤ w) (hh : vp ≤ h)
    (hI : ImageOK w h img 0) (hc : w * h ≤ 2 ^ 29) (hgc : grayCount w h img 0 < 256)
    (hb : ∀ k < n, (b k).top 0 = heapBase (pinfo hp vp w h) k)
    {b1 : Buf} {ls1 : Nat → Nat} (hb1 : b1.top 0 = 0)
    (hf : 512 * joinCount n hp vp w h ≤ fuel) :
    ∃ (ms : Nat → MSt) (m1 : MSt) (W : World (Nat × Nat)) (f : Nat → Nat × Nat),
      (∀ k < n, pass (pinfo hp vp w h k).width (pinfo hp vp w h k).height (patchImg hp vp w h img k) 0
        fromMin (heapSize n w h) (5 * ((pinfo hp vp w h k).width * (pinfo hp vp w h k).height)) (b k) (ls k)
          = .done (ms k)) ∧
      pass w h img 0 fromMin (heapSize 1 w h) (5 * (w * h)) b1 ls1 = .done m1 ∧
      mergeTrees n hp vp w h ms fuel 512 = some W ∧
      SameTree (pixels w h) (memTree w m1) (mergedTree n hp vp w h ms fuel W) f := by
  obtain ⟨m1, hm1⟩ := C04_pass_completes (b := b1) (ls := ls1) (fromMin := fromMin) (hsize := heapSize 1 w h)
    hI hc (by rw [hb1]; unfold heapSize; rw [Nat.mul_comm h w]; omega) hgc
  have hex : ∀ k, ∃ m, k < n → pass (pinfo hp vp w h k).width (pinfo hp vp w h k).height
      (patchImg hp vp w h img k) 0 fromMin (heapSize n w h)
      (5 * ((pinfo hp vp w h k).width * (pinfo hp vp w h k).height)) (b k) (ls k) = .done m := by
    intro k
    by_cases hk : k < n
    · obtain ⟨m, hm⟩ := C04_pass_completes (b := b k) (ls := ls k) (fromMin := fromMin) (hsize := heapSize n w h)
        (patch_imageOK hl hw hh hI hk) (le_trans (patch_area_le hl hk) hc)
        (by rw [hb k hk]; exact patch_heap_fits hl hk) (lt_of_le_of_lt (patch_grayCount hl hk) hgc)
      exact ⟨m, fun _ => hm⟩
    · exact ⟨m1, fun h => absurd h hk⟩
  choose ms hms using hex
  obtain ⟨W, f, h1, h2⟩ := C12_same_as_single_thread hl hw hh hI hc hb (fun k hk => hms k hk) hf hb1 hm1
  exact ⟨ms, m1, W, f, fun k hk => hms k hk, hm1, h1, h2⟩

/-- A 3×2 image on four threads. -/
example : ∃ (ms : Nat → MSt) (m1 : MSt) (W : World (Nat × Nat)) (f : Nat → Nat × Nat),
    mergeTrees 4 2 2 3 2 ms 10000 512 = some W ∧
      SameTree (pixels 3 2) (memTree 3 m1) (mergedTree 4 2 2 3 2 ms 10000 W) f := by
  have hI : ImageOK 3 2 sampleImg 0 :=
    ⟨by decide, by decide, fun x y _ _ => by unfold sampleImg; split <;> [skip; split] <;> decide, by decide⟩
  obtain ⟨ms, m1, W, f, _, _, h1, h2⟩ := C12_runs_to_completion (n := 4) (hp := 2) (vp := 2) (fromMin := true)
    (fuel := 10000) (b := fun k => ⟨fun _ => 0, fun _ => none, fun _ => heapBase (pinfo 2 2 3 2) k⟩)
    (ls := fun _ _ => 0) (b1 := emptyBuf) (ls1 := fun _ => 0) rfl (by decide) (by decide) hI (by decide) (by decide)
    (fun _ _ => rfl) rfl (by decide)
  exact ⟨ms, m1, W, f, h1, h2⟩

end

section
variable {steps steps2 : Nat → Nat} {b : Nat → Buf} {ls : Nat → Nat → Nat} {md ms : Nat → MSt}

/-- **C12** (bright regions, after the dark ones) The same for the second polarity. -/
theorem C12_bright_same_as_single_thread (hl : layoutV2 n = some (hp, vp)) (hw : hp ≤ w) (hh : vp ≤ h)
    (hI : ImageOK w h img 0) (hc : w * h ≤ 2 ^ 29)
    (hb : ∀ k < n, (b k).top 0 = heapBase (pinfo hp vp w h) k)
    (hr : ∀ k < n, pass (pinfo hp vp w h k).width (pinfo hp vp w h k).height (patchImg hp vp w h img k) 0
      true (heapSize n w h) (steps k) (b k) (ls k) = .done (md k))
    (hr2 : ∀ k < n, pass (pinfo hp vp w h k).width (pinfo hp vp w h k).height (patchImg hp vp w h img k) 255
      true (heapSize n w h) (steps2 k) (md k).toBuf
      (levelSizes (pinfo hp vp w h k).width (pinfo hp vp w h k).height (patchImg hp vp w h img k)) = .done (ms k))
    (hf : 512 * joinCount n hp vp w h ≤ fuel)
    {s1 s2 : Nat} {b1 : Buf} {ls1 : Nat → Nat} {m1 m2 : MSt} (hb1 : b1.top 0 = 0)
    (hr1 : pass w h img 0 true (heapSize 1 w h) s1 b1 ls1 = .done m1)
    (hr12 : pass w h img 255 true (heapSize 1 w h) s2 m1.toBuf (levelSizes w h img) = .done m2) :
    ∃ W f, mergeTrees n hp vp w h ms fuel 512 = some W ∧
      IsComponentTree (Adj4 w h) (fun p => img p.1 p.2 ^^^ 255) (pixels w h) (mergedTree n hp vp w h ms fuel W) ∧
      SameTree (pixels w h) (memTree w m2) (mergedTree n hp vp w h ms fuel W) f := by
  have hg : ∀ p ∈ pixels w h, gval img 255 p < 256 := by
    intro p hp'
    rw [mem_pixels] at hp'
    rw [gval, FloodMem.xor_255 _ (hI.img_lt _ _ hp'.1 hp'.2)]; omega
  obtain ⟨W, h1, h2⟩ := merge_main (gm := 255) (fuel := fuel) (ms := ms) hl hw hh hg (fun k hk =>
    (C17_bright_pass_builds_tree_of_inverted (patch_imageOK hl hw hh hI hk)
      (le_trans (patch_area_le hl hk) hc) (by rw [hb k hk]; exact patch_heap_fits hl hk) (hr k hk) (hr2 k hk)).1) hf
  have h3 := (C17_bright_pass_builds_tree_of_inverted hI hc
    (by rw [hb1]; unfold heapSize; rw [Nat.mul_comm h w]; omega) hr1 hr12).1
  have hne : (pixels w h).Nonempty := ⟨(0, 0), mem_pixels.2 ⟨hI.w_pos, hI.h_pos⟩⟩
  obtain ⟨f, hf⟩ := h3.same h2 hne
  exact ⟨W, f, h1, h2, hf⟩

end

end Verif.Props
