import Verif.Props.Recognize

/-!
# Properties C18 – C23 for images: flooding, joining and recognition together
-/

namespace Verif.Props

open Verif.Spec Verif.Recog Verif.Partition
open Verif.FloodMem (pass Buf MSt levelSizes)
open Verif.Connect (World Str)

variable {w h n hp vp : Nat} {img : Nat → Nat → Nat} {gm fuel : Nat} {ms : Nat → MSt}

/-- All patches have been flooded: the memory of each holds the component tree of its part of the image (C01,
C17); the image has at most 2²⁹ pixels. -/
structure PatchTrees (n hp vp w h : Nat) (img : Nat → Nat → Nat) (gm : Nat) (ms : Nat → MSt) : Prop where
  layout : layoutV2 n = some (hp, vp)
  wide : hp ≤ w
  high : vp ≤ h
  gray : ∀ p ∈ pixels w h, img p.1 p.2 ^^^ gm < 256
  small : w * h ≤ 2 ^ 29
  tree : ∀ k < n, IsComponentTree (Adj4 (pinfo hp vp w h k).width (pinfo hp vp w h k).height)
      (fun p => patchImg hp vp w h img k p.1 p.2 ^^^ gm)
      (pixels (pinfo hp vp w h k).width (pinfo hp vp w h k).height) (memTree (pinfo hp vp w h k).width (ms k))

/-- The regions of patch `k`, in the order in which they were made. -/
def patchRegs (ms : Nat → MSt) (k : Nat) : List (Nat × Nat) := (List.range (ms k).nreg).map fun r => (k, r)

/-- The regions of the first `n` patches. -/
def isPatchReg (n : Nat) (ms : Nat → MSt) (kr : Nat × Nat) : Prop := kr.1 < n ∧ kr.2 < (ms kr.1).nreg

/-- Dark regions: the state after flooding. -/
theorem patchTrees_dark {fromMin : Bool} {steps : Nat → Nat} {b : Nat → Buf} {ls : Nat → Nat → Nat}
    (hl : layoutV2 n = some (hp, vp)) (hw : hp ≤ w) (hh : vp ≤ h)
    (hI : ImageOK w h img 0) (hc : w * h ≤ 2 ^ 29)
    (hb : ∀ k < n, (b k).top 0 = heapBase (pinfo hp vp w h) k)
    (hr : ∀ k < n, pass (pinfo hp vp w h k).width (pinfo hp vp w h k).height (patchImg hp vp w h img k) 0
      fromMin (heapSize n w h) (steps k) (b k) (ls k) = .done (ms k)) : PatchTrees n hp vp w h img 0 ms := by
  refine ⟨hl, hw, hh, fun p hp' => ?_, hc, fun k hk => ?_⟩
  · rw [mem_pixels] at hp'; simpa using hI.img_lt _ _ hp'.1 hp'.2
  · have := C01_memory_holds_component_tree (patch_imageOK hl hw hh hI hk)
      (le_trans (patch_area_le hl hk) hc) (by rw [hb k hk]; exact patch_heap_fits hl hk) (hr k hk)
    simpa using this

/-- Bright regions, found after the dark ones: the state after flooding. -/
theorem patchTrees_bright {steps steps2 : Nat → Nat} {b : Nat → Buf} {ls : Nat → Nat → Nat} {md : Nat → MSt}
    (hl : layoutV2 n = some (hp, vp)) (hw : hp ≤ w) (hh : vp ≤ h)
    (hI : ImageOK w h img 0) (hc : w * h ≤ 2 ^ 29)
    (hb : ∀ k < n, (b k).top 0 = heapBase (pinfo hp vp w h) k)
    (hr : ∀ k < n, pass (pinfo hp vp w h k).width (pinfo hp vp w h k).height (patchImg hp vp w h img k) 0
      true (heapSize n w h) (steps k) (b k) (ls k) = .done (md k))
    (hr2 : ∀ k < n, pass (pinfo hp vp w h k).width (pinfo hp vp w h k).height (patchImg hp vp w h img k) 255
      true (heapSize n w h) (steps2 k) (md k).toBuf
      (levelSizes (pinfo hp vp w h k).width (pinfo hp vp w h k).height (patchImg hp vp w h img k)) = .done (ms k)) :
    PatchTrees n hp vp w h img 255 ms := by
  refine ⟨hl, hw, hh, fun p hp' => ?_, hc, fun k hk => ?_⟩
  · rw [mem_pixels] at hp'
    rw [FloodMem.xor_255 _ (hI.img_lt _ _ hp'.1 hp'.2)]; omega
  · exact (C17_bright_pass_builds_tree_of_inverted (patch_imageOK hl hw hh hI hk)
      (le_trans (patch_area_le hl hk) hc) (by rw [hb k hk]; exact patch_heap_fits hl hk) (hr k hk) (hr2 k hk)).1

theorem mem_patchRegs {k : Nat} {r : Nat × Nat} : r ∈ patchRegs ms k ↔ r.1 = k ∧ r.2 < (ms k).nreg := by
  unfold patchRegs
  rw [List.mem_map]
  constructor
  · rintro ⟨x, hx, rfl⟩; exact ⟨rfl, List.mem_range.1 hx⟩
  · rintro ⟨rfl, h2⟩; exact ⟨r.2, List.mem_range.2 h2, rfl⟩

/-- The memory blocks of the patches. -/
theorem patch_blocks : Blocks (isPatchReg n ms) Prod.fst n (patchRegs ms) := by
  refine ⟨fun k _ => ?_, fun k hk r => ?_, fun r hr => hr.1⟩
  · exact List.Nodup.map (fun a b e => (Prod.mk.inj e).2) List.nodup_range
  · rw [mem_patchRegs]
    unfold isPatchReg
    constructor
    · rintro ⟨rfl, h2⟩; exact ⟨⟨hk, h2⟩, rfl⟩
    · rintro ⟨⟨_, h2⟩, rfl⟩; exact ⟨rfl, h2⟩

/-- A patch has at most as many regions as pixels, so its slice of the heap has room for all of them. -/
theorem patch_regs_fit (hP : PatchTrees n hp vp w h img gm ms) : ∀ k < n, (patchRegs ms k).length ≤
    (pinfo hp vp w h k).width * (pinfo hp vp w h k).height + 257 := by
  intro k hk
  have hT := hP.tree k hk
  have hc : (ms k).nreg ≤ (pixels (pinfo hp vp w h k).width (pinfo hp vp w h k).height).card := by
    have : Finset.range (ms k).nreg ⊆
        (pixels (pinfo hp vp w h k).width (pinfo hp vp w h k).height).image (memTree (pinfo hp vp w h k).width (ms k)).lab := by
      intro r hr
      obtain ⟨p, hp', e⟩ := hT.reg_lab r (Finset.mem_range.1 hr)
      exact Finset.mem_image.2 ⟨p, hp', e⟩
    have h1 := le_trans (Finset.card_le_card this) Finset.card_image_le
    rwa [Finset.card_range] at h1
  have : (pixels (pinfo hp vp w h k).width (pinfo hp vp w h k).height).card =
      (pinfo hp vp w h k).width * (pinfo hp vp w h k).height := by simp [pixels]
  unfold patchRegs
  rw [List.length_map, List.length_range]; omega

/-- Joining leaves the component tree of the whole image in memory. -/
theorem held_after_merge (hP : PatchTrees n hp vp w h img gm ms) (hf : 512 * joinCount n hp vp w h ≤ fuel) :
    ∃ W, mergeTrees n hp vp w h ms fuel 512 = some W ∧
      IsComponentTree (Adj4 w h) (fun p => img p.1 p.2 ^^^ gm) (pixels w h) (mergedTree n hp vp w h ms fuel W) ∧
      Held (isPatchReg n ms) W.F fuel (mergedTree n hp vp w h ms fuel W) ∧
      ∀ r, (mergedTree n hp vp w h ms fuel W).isReg r → (mergedTree n hp vp w h ms fuel W).size r < 2 ^ 31 := by
  classical
  obtain ⟨W, h1, h2, h3, h4⟩ := merge_shape (fuel := fuel) (gm := gm) (img := img) (ms := ms) hP.layout hP.wide hP.high
    hP.gray hP.tree hf
  refine ⟨W, h1, h2, ⟨⟨W.merges, h3, h4⟩, ⟨_, rfl⟩, h2.ok hP.gray⟩, fun r hr => ?_⟩
  rw [h2.size_eq r hr ((pixels w h).filter fun p => (mergedTree n hp vp w h ms fuel W).Under r p)
    (fun p => by rw [Finset.mem_filter])]
  have : (pixels w h).card = w * h := by simp [pixels]
  have := Finset.card_filter_le (pixels w h) (fun p => (mergedTree n hp vp w h ms fuel W).Under r p)
  have := hP.small
  omega

variable {cfg : Cfg} {msize exceed : Nat}

/-- **C19, C23** From a flooded image to the reported regions with one thread: the joined tree is the component
tree of the image, and what is reported is the duplicate removal of what is selected from it. -/
theorem C23_image_serial (hP : PatchTrees n hp vp w h img gm ms) (hf : 512 * joinCount n hp vp w h ≤ fuel)
    (v : Nat × Nat → ℚ) (h32 : Rounding cfg.r32) (h64 : Rounding cfg.r64) (hst : -1 ≤ cfg.stable) (hd : 1 ≤ cfg.delta) :
    ∃ W out arr gs, mergeTrees n hp vp w h ms fuel 512 = some W ∧
      IsComponentTree (Adj4 w h) (fun p => img p.1 p.2 ^^^ gm) (pixels w h) (mergedTree n hp vp w h ms fuel W) ∧
      recognizeSerial cfg fuel (allRegs n (patchRegs ms)) msize exceed (ofForest W.F v) = some out ∧
      Result (mergedTree n hp vp w h ms fuel W) cfg (Selected (mergedTree n hp vp w h ms fuel W) (limits cfg)) out arr gs := by
  obtain ⟨W, h1, h2, h3, _⟩ := held_after_merge hP hf
  obtain ⟨out, arr, gs, e, hr⟩ := C23_serial (msize := msize) (exceed := exceed) (v := v) h3 patch_blocks.all.1
    patch_blocks.all.2 h32 h64 hst hd
  exact ⟨W, out, arr, gs, h1, h2, e, hr⟩

/-- **C19, C23** The same with 32 threads. -/
theorem C23_image_parallel (hP : PatchTrees n hp vp w h img gm ms) (hf : 512 * joinCount n hp vp w h ≤ fuel)
    (v : Nat × Nat → ℚ) (h32 : Rounding cfg.r32) (h64 : Rounding cfg.r64) (hst : -1 ≤ cfg.stable) :
    ∃ W out arr gs, mergeTrees n hp vp w h ms fuel 512 = some W ∧
      IsComponentTree (Adj4 w h) (fun p => img p.1 p.2 ^^^ gm) (pixels w h) (mergedTree n hp vp w h ms fuel W) ∧
      recognizeParallel cfg Prod.fst fuel n (patchRegs ms) msize exceed (ofForest W.F v) = some out ∧
      Result (mergedTree n hp vp w h ms fuel W) cfg (Selected (mergedTree n hp vp w h ms fuel W) (limits cfg)) out arr gs := by
  obtain ⟨W, h1, h2, h3, h4⟩ := held_after_merge hP hf
  obtain ⟨out, arr, gs, e, hr⟩ := C23_parallel (msize := msize) (exceed := exceed) (v := v) h3 patch_blocks h32 h64 hst h4
  exact ⟨W, out, arr, gs, h1, h2, e, hr⟩

/-- **C19, C23** The same with 4 threads; the deferred regions fit into the patches' slices of the heap. -/
theorem C23_image_four (hP : PatchTrees n hp vp w h img gm ms) (hf : 512 * joinCount n hp vp w h ≤ fuel)
    (v : Nat × Nat → ℚ) (h32 : Rounding cfg.r32) (h64 : Rounding cfg.r64) (hst : -1 ≤ cfg.stable) :
    ∃ W out arr gs, mergeTrees n hp vp w h ms fuel 512 = some W ∧
      IsComponentTree (Adj4 w h) (fun p => img p.1 p.2 ^^^ gm) (pixels w h) (mergedTree n hp vp w h ms fuel W) ∧
      recognizeAccel cfg Prod.fst fuel n (fun k => (pinfo hp vp w h k).width * (pinfo hp vp w h k).height + 257)
        (patchRegs ms) msize exceed (ofForest W.F v) = some out ∧
      Result (mergedTree n hp vp w h ms fuel W) cfg (Selected (mergedTree n hp vp w h ms fuel W) (limits cfg)) out arr gs := by
  obtain ⟨W, h1, h2, h3, h4⟩ := held_after_merge hP hf
  obtain ⟨out, arr, gs, e, hr⟩ := C23_four (msize := msize) (exceed := exceed) (v := v) h3 patch_blocks
    (patch_regs_fit hP) h32 h64 hst h4
  exact ⟨W, out, arr, gs, h1, h2, e, hr⟩

variable {ms₁ : Nat → MSt} {fuel₁ : Nat}

/-- The trees built with one and with `n` threads are the same. -/
theorem same_after_merge (hP : PatchTrees n hp vp w h img gm ms) (hf : 512 * joinCount n hp vp w h ≤ fuel)
    (hP₁ : PatchTrees 1 1 1 w h img gm ms₁) (hf₁ : 512 * joinCount 1 1 1 w h ≤ fuel₁)
    {W W₁ : World (Nat × Nat)} (hW : mergeTrees n hp vp w h ms fuel 512 = some W)
    (hW₁ : mergeTrees 1 1 1 w h ms₁ fuel₁ 512 = some W₁) :
    ∃ f, SameTree (pixels w h) (mergedTree 1 1 1 w h ms₁ fuel₁ W₁) (mergedTree n hp vp w h ms fuel W) f := by
  obtain ⟨V, h1, h2, _⟩ := held_after_merge hP hf
  obtain ⟨V₁, h3, h4, _⟩ := held_after_merge hP₁ hf₁
  rw [hW] at h1; obtain rfl := Option.some.inj h1
  rw [hW₁] at h3; obtain rfl := Option.some.inj h3
  have hw := hP₁.wide
  have hh := hP₁.high
  exact h4.same h2 ⟨(0, 0), mem_pixels.2 ⟨hw, hh⟩⟩

/-- **C21** From the same flooded image, one thread and 32 threads build the same tree and select the same
regions with the same stability values. -/
theorem C21_image_1_and_32 (hP : PatchTrees n hp vp w h img gm ms) (hf : 512 * joinCount n hp vp w h ≤ fuel)
    (hP₁ : PatchTrees 1 1 1 w h img gm ms₁) (hf₁ : 512 * joinCount 1 1 1 w h ≤ fuel₁) (v v₁ : Nat × Nat → ℚ)
    (h32 : Rounding cfg.r32) (hst : -1 ≤ cfg.stable) (hd : 1 ≤ cfg.delta) :
    ∃ W W₁ f s s₁, mergeTrees n hp vp w h ms fuel 512 = some W ∧ mergeTrees 1 1 1 w h ms₁ fuel₁ 512 = some W₁ ∧
      SameTree (pixels w h) (mergedTree 1 1 1 w h ms₁ fuel₁ W₁) (mergedTree n hp vp w h ms fuel W) f ∧
      selectSerial cfg fuel₁ (allRegs 1 (patchRegs ms₁)) (ofForest W₁.F v₁) = some s₁ ∧
      selectParallel cfg Prod.fst fuel n (patchRegs ms) (ofForest W.F v) = some s ∧
      ∀ r, (mergedTree 1 1 1 w h ms₁ fuel₁ W₁).isReg r →
        (s.R (f r)).flag = (s₁.R r).flag ∧ (s.R (f r)).var = (s₁.R r).var := by
  obtain ⟨W, h1, h2, h3, _⟩ := held_after_merge hP hf
  obtain ⟨W₁, h4, h5, h6, _⟩ := held_after_merge hP₁ hf₁
  obtain ⟨f, hS⟩ := same_after_merge hP hf hP₁ hf₁ h1 h4
  obtain ⟨s₁, s, e1, e2, e3⟩ := C21_one_and_32_agree (v := v) (v₁ := v₁) (cfg := cfg) h3 patch_blocks h6
    patch_blocks.all.1 patch_blocks.all.2 hS h32 hst hd
  exact ⟨W, W₁, f, s, s₁, h1, h4, hS, e1, e2, e3⟩

/-- **C21** The same for one and four threads. -/
theorem C21_image_1_and_4 (hP : PatchTrees n hp vp w h img gm ms) (hf : 512 * joinCount n hp vp w h ≤ fuel)
    (hP₁ : PatchTrees 1 1 1 w h img gm ms₁) (hf₁ : 512 * joinCount 1 1 1 w h ≤ fuel₁) (v v₁ : Nat × Nat → ℚ)
    (h32 : Rounding cfg.r32) (hst : -1 ≤ cfg.stable) (hd : 1 ≤ cfg.delta) :
    ∃ W W₁ f s s₁, mergeTrees n hp vp w h ms fuel 512 = some W ∧ mergeTrees 1 1 1 w h ms₁ fuel₁ 512 = some W₁ ∧
      SameTree (pixels w h) (mergedTree 1 1 1 w h ms₁ fuel₁ W₁) (mergedTree n hp vp w h ms fuel W) f ∧
      selectSerial cfg fuel₁ (allRegs 1 (patchRegs ms₁)) (ofForest W₁.F v₁) = some s₁ ∧
      selectAccel cfg Prod.fst fuel n (fun k => (pinfo hp vp w h k).width * (pinfo hp vp w h k).height + 257)
        (patchRegs ms) (ofForest W.F v) = some s ∧
      ∀ r, (mergedTree 1 1 1 w h ms₁ fuel₁ W₁).isReg r →
        (s.R (f r)).flag = (s₁.R r).flag ∧ (s.R (f r)).var = (s₁.R r).var := by
  obtain ⟨W, h1, h2, h3, _⟩ := held_after_merge hP hf
  obtain ⟨W₁, h4, h5, h6, _⟩ := held_after_merge hP₁ hf₁
  obtain ⟨f, hS⟩ := same_after_merge hP hf hP₁ hf₁ h1 h4
  obtain ⟨s₁, s, e1, e2, e3⟩ := C21_one_and_4_agree (v := v) (v₁ := v₁) (cfg := cfg) h3 patch_blocks (patch_regs_fit hP) h6
    patch_blocks.all.1 patch_blocks.all.2 hS h32 hst hd
  exact ⟨W, W₁, f, s, s₁, h1, h4, hS, e1, e2, e3⟩

/-- Every image with fewer than 256 gray values can be flooded with `n` threads. -/
theorem patchTrees_exist (hl : layoutV2 n = some (hp, vp)) (hw : hp ≤ w) (hh : vp ≤ h)
    (hI : ImageOK w h img 0) (hc : w * h ≤ 2 ^ 29) (hgc : grayCount w h img 0 < 256) :
    ∃ ms, PatchTrees n hp vp w h img 0 ms := by
  obtain ⟨ms, _, _, _, h1, _⟩ := C12_runs_to_completion (fuel := 512 * joinCount n hp vp w h) (fromMin := true)
    (b := fun k => ⟨fun _ => 0, fun _ => none, fun _ => heapBase (pinfo hp vp w h) k⟩)
    (ls := fun _ _ => 0) (b1 := emptyBuf) (ls1 := fun _ => 0) hl hw hh hI hc hgc (fun _ _ => rfl) rfl (le_refl _)
  exact ⟨ms, patchTrees_dark (fromMin := true)
    (b := fun k => ⟨fun _ => 0, fun _ => none, fun _ => heapBase (pinfo hp vp w h) k⟩) hl hw hh hI hc (fun _ _ => rfl) h1⟩

/-- Exact arithmetic is a rounding. -/
theorem rounding_id : Rounding id :=
  ⟨fun _ _ h => h, fun _ => rfl, fun a b ha hb _ => div_pos (by exact_mod_cast ha) (by exact_mod_cast hb)⟩

/-- A configuration for small examples. -/
def sampleCfg : Cfg :=
  { delta := 1, minPoint := 1, maxPoint := 100, stable := 1 / 2, nms := 1 / 10, dup := 1 / 5, r32 := id, r64 := id }

/-- The hypotheses of the theorems of this file hold for a 3×2 image on one and on four threads. -/
example : ∃ ms ms₁ W W₁ f s s₁, PatchTrees 4 2 2 3 2 sampleImg 0 ms ∧ PatchTrees 1 1 1 3 2 sampleImg 0 ms₁ ∧
    SameTree (pixels 3 2) (mergedTree 1 1 1 3 2 ms₁ 10000 W₁) (mergedTree 4 2 2 3 2 ms 10000 W) f ∧
    selectSerial sampleCfg 10000 (allRegs 1 (patchRegs ms₁)) (ofForest W₁.F fun _ => 0) = some s₁ ∧
    selectAccel sampleCfg Prod.fst 10000 4 (fun k => (pinfo 2 2 3 2 k).width * (pinfo 2 2 3 2 k).height + 257)
      (patchRegs ms) (ofForest W.F fun _ => 0) = some s := by
  have hI : ImageOK 3 2 sampleImg 0 :=
    ⟨by decide, by decide, fun x y _ _ => by unfold sampleImg; split <;> [skip; split] <;> decide, by decide⟩
  obtain ⟨ms, h1⟩ := patchTrees_exist (n := 4) (hp := 2) (vp := 2) rfl (by decide) (by decide) hI (by decide) (by decide)
  obtain ⟨ms₁, h2⟩ := patchTrees_exist (n := 1) (hp := 1) (vp := 1) rfl (by decide) (by decide) hI (by decide) (by decide)
  obtain ⟨W, W₁, f, s, s₁, a1, a2, a3, a4, a5, _⟩ := C21_image_1_and_4 (cfg := sampleCfg) (fuel := 10000) (fuel₁ := 10000)
    h1 (by decide) h2 (by decide) (fun _ => 0) (fun _ => 0) rounding_id (by norm_num [sampleCfg]) (by decide)
  exact ⟨ms, ms₁, W, W₁, f, s, s₁, h1, h2, a3, a4, a5⟩

end Verif.Props
