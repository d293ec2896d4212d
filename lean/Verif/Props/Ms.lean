import Verif.Model.Ms
import Verif.Props.FloodMem
import Verif.Props.Eight
import Verif.Props.LinearRecog

/-!
# Property C86: flooding of the ms detector
-/

namespace Verif.Props

open Verif.Spec Verif.Flood Verif.FloodMem
open Verif.Ms (nbM msPatch msPatch8 heapCells preProcess buildTree)

variable {w h : Nat} {img : Nat → Nat → Nat} {gm n n1 : Nat} {b : Buf} {ls : Nat → Nat} {fromMin : Bool} {ms m1 : MSt}

/-- The same neighbours in another order. -/
theorem nbM_nb4 (w i k : Nat) : ∃ k', (1 ≤ k → k ≤ 4 → 1 ≤ k' ∧ k' ≤ 4) ∧ nbM w i k = nb4 w i k' := by
  by_cases h1 : k = 1
  · subst h1; exact ⟨1, by omega, rfl⟩
  by_cases h2 : k = 2
  · subst h2; exact ⟨3, by omega, rfl⟩
  by_cases h3 : k = 3
  · subst h3; exact ⟨4, by omega, rfl⟩
  by_cases h4 : k = 4
  · subst h4; exact ⟨2, by omega, rfl⟩
  · refine ⟨0, by omega, ?_⟩
    unfold nbM; split <;> first | omega | rfl

theorem nb4_nbM (w i k : Nat) (h1 : 1 ≤ k) (h4 : k ≤ 4) : ∃ k', 1 ≤ k' ∧ k' ≤ 4 ∧ nb4 w i k = nbM w i k' := by
  have : k = 1 ∨ k = 2 ∨ k = 3 ∨ k = 4 := by omega
  rcases this with rfl | rfl | rfl | rfl
  · exact ⟨1, by omega, by omega, rfl⟩
  · exact ⟨4, by omega, by omega, rfl⟩
  · exact ⟨2, by omega, by omega, rfl⟩
  · exact ⟨3, by omega, by omega, rfl⟩

theorem adj_ms : (msPatch w h img gm).adj = (gridPatch w h img gm).adj := by
  funext i j
  refine propext ⟨?_, ?_⟩
  · rintro ⟨hi, hj, k, h1, h2, e⟩
    obtain ⟨k', h3, h4⟩ := nbM_nb4 w i k
    exact ⟨hi, hj, k', (h3 h1 h2).1, (h3 h1 h2).2, h4.symm.trans e⟩
  · rintro ⟨hi, hj, k, h1, h2, e⟩
    obtain ⟨k', h3, h4, h5⟩ := nb4_nbM w i k h1 h2
    exact ⟨hi, hj, k', h3, h4, h5.symm.trans e⟩

theorem ok_ms (hI : ImageOK w h img gm) : (msPatch w h img gm).OK := by
  have h0 := ok_of hI
  refine ⟨h0.start_mem, h0.gray_lt, ?_, ?_⟩
  · intro i hi k k1 k2 hk
    obtain ⟨k', h3, h4⟩ := nbM_nb4 w i k
    have hk' : (gridPatch w h img gm).nb i k' ∈ (gridPatch w h img gm).px := by
      show nb4 w i k' ∈ _
      rw [← h4]; exact hk
    obtain ⟨k2', a, c, e⟩ := h0.symm i hi k' (h3 k1 k2).1 (h3 k1 k2).2 hk'
    obtain ⟨k3, a3, c3, e3⟩ := nb4_nbM w (nb4 w i k') k2' a c
    refine ⟨k3, a3, c3, ?_⟩
    show nbM w (nbM w i k) k3 = i
    rw [h4, ← e3]; exact e
  · intro i hi
    have := h0.conn i hi
    rwa [← adj_ms] at this

theorem isTree_ms {s : St} (hT : IsComponentTree (msPatch w h img gm).adj (msPatch w h img gm).gray (msPatch w h img gm).px
    (Flood.treeOf s)) : IsComponentTree (Adj4 w h) (fun p => img p.1 p.2 ^^^ gm) (pixels w h) (gridTree w s) := by
  rw [adj_ms] at hT
  exact gridTree_isTree hT

theorem memTree_ms {s : St} {c : Flood.Comp} {h0 : Nat → Option Nat} {base : Nat} (hc : Flood.Final (msPatch w h img gm) s c)
    (hS : Sim (msPatch w h img gm).px h0 (histOf (msPatch w h img gm)) base ms s (msPatch w h img gm).px) :
    IsComponentTree (Adj4 w h) (fun p => img p.1 p.2 ^^^ gm) (pixels w h) (memTree w ms) := by
  refine isTree_congr (isTree_ms hc.isTree) ?_ ?_ ?_ ?_ ?_
  · intro p hp
    have hp' := mem_pixels.1 hp
    show labelOf ms.words (idx w p.1 p.2) = s.lab (idx w p.1 p.2)
    rw [labelOf, done_words hS, if_pos]
    · omega
    · show _ ∈ (gridPatch w h img gm).px
      exact mem_px.2 ⟨p.1, p.2, hp'.1, hp'.2, rfl⟩
  · simp only [memTree, gridTree, hS.nreg]
  · simp only [memTree, gridTree, hS.regs]
  · simp only [memTree, gridTree, hS.regs]
  · simp only [memTree, gridTree, hS.regs]

/-- The abstract flooding completes in `5·w·h` steps. -/
theorem completes_ms (hI : ImageOK w h img gm) (hg : grayCount w h img gm < 256) :
    ∃ s, Flood.run (msPatch w h img gm) (5 * (w * h)) (Flood.init (msPatch w h img gm)) = .done s := by
  have hP := ok_ms hI
  have hcap : (msPatch w h img gm).cap = 256 := rfl
  have hnd : (msPatch w h img gm).nd = 4 := rfl
  have hcard : (msPatch w h img gm).px.card = w * h := gridPatch_card (img := img) (gm := gm)
  have hgi : ((msPatch w h img gm).px.image (msPatch w h img gm).gray).card = grayCount w h img gm := gray_image
  have := Flood.run_inv hP (5 * (w * h)) (Flood.inv_init hP)
  revert this
  cases hr : Flood.run (msPatch w h img gm) (5 * (w * h)) (Flood.init (msPatch w h img gm)) with
  | next s' =>
    simp only
    rintro ⟨cs, F, h1, h2⟩
    have := h1.work_lt
    rw [h2, work_init, hcard, hnd] at this
    omega
  | done s' => exact fun _ => ⟨s', rfl⟩
  | ub => simp only; rw [hgi, hcap]; omega

theorem first_ready_ms (w h : Nat) (img : Nat → Nat → Nat) (fromMin : Bool) (b : Buf) (ls : Nat → Nat) :
    Ready (msPatch w h img 0) (b.top 0) (preProcess w h img 0 fromMin b ls).1 := by
  simp only [preProcess, true_or, if_true, prepareFirst]
  refine setHeap_ready rfl (fun l _ => by rw [hist_first]; rfl) ?_ ?_
  · intro i hi; simp [hi]
  · intro i hi; simp [hi]

theorem second_ready_ms (hi : ∀ x y, x < w → y < h → img x y < 256)
    (hb : ∀ i, i ∉ (msPatch w h img 0).px → b.words i = boundaryPixel) :
    Ready (msPatch w h img 255) (b.top 0) (preProcess w h img 255 true b (levelSizes w h img)).1 := by
  rw [preProcess, if_neg (by simp)]
  simp only [prepareSecond]
  refine setHeap_ready rfl (fun l hl => hist_second hi hl) ?_ ?_
  · intro i hi; simp [hi]
  · intro i hi; simp only [hi, if_false]; exact hb i hi

/-- Any completed pass that started from prepared buffers. -/
theorem pass_ms (hI : ImageOK w h img gm) (hc : w * h ≤ 2 ^ 29) (h0 : b.top 0 = 0)
    (hb : Ready (msPatch w h img gm) (b.top 0) (preProcess w h img gm fromMin b ls).1)
    (hr : buildTree w h img gm fromMin n b ls = .done ms) :
    IsComponentTree (Adj4 w h) (fun p => img p.1 p.2 ^^^ gm) (pixels w h) (memTree w ms) ∧ ms.top 0 = 0 ∧
      ∀ i, i ∉ (msPatch w h img 0).px → ms.words i = boundaryPixel := by
  have hcard : (msPatch w h img gm).px.card = w * h := gridPatch_card (img := img) (gm := gm)
  obtain ⟨s, c, _, hF, hS⟩ := pass_done (ok_ms hI) rfl (by rw [hcard, h0]; unfold heapCells; omega) (by omega) hb hr
  refine ⟨memTree_ms hF hS, ?_, ?_⟩
  · have := (done_heap hF hS (Nat.zero_le 256)).1
    simpa [offset, h0] using this
  · intro i hi
    have hi' : i ∉ (msPatch w h img gm).px := hi
    rw [done_words hS, if_neg hi']

theorem runs_ms (hI : ImageOK w h img gm) (hc : w * h ≤ 2 ^ 29) (h0 : b.top 0 = 0) (hg : grayCount w h img gm < 256)
    (hb : Ready (msPatch w h img gm) (b.top 0) (preProcess w h img gm fromMin b ls).1) :
    ∃ ms, buildTree w h img gm fromMin (5 * (w * h)) b ls = .done ms := by
  have hcard : (msPatch w h img gm).px.card = w * h := gridPatch_card (img := img) (gm := gm)
  obtain ⟨s, hs⟩ := completes_ms hI hg
  exact pass_of_done (ok_ms hI) rfl (by rw [hcard, h0]; unfold heapCells; omega) (by omega) hb hs

/-! ### C86 -/

/-- **C86** (what holds; full statement: for every image) With fewer than 256 different gray values the dark pass completes
after at most `5·w·h` steps, without an access outside the heap or the component stack, and leaves the component tree of
the image under 4-adjacency. -/
theorem C86_dark_partial (hI : ImageOK w h img 0) (hc : w * h ≤ 2 ^ 29) (h0 : b.top 0 = 0)
    (hg : grayCount w h img 0 < 256) :
    ∃ ms, buildTree w h img 0 fromMin (5 * (w * h)) b ls = .done ms ∧
      IsComponentTree (Adj4 w h) (fun p => img p.1 p.2) (pixels w h) (memTree w ms) := by
  have hb := first_ready_ms w h img fromMin b ls
  obtain ⟨ms, hr⟩ := runs_ms hI hc h0 hg hb
  refine ⟨ms, hr, ?_⟩
  have := (pass_ms hI hc h0 hb hr).1
  simpa using this

/-- Counting gray values of the inverted image. -/
theorem grayCount_255 : grayCount w h img 255 = grayCount w h img 0 := by
  unfold grayCount
  have : (pixels w h).image (fun p => img p.1 p.2 ^^^ 255)
      = ((pixels w h).image (fun p => img p.1 p.2 ^^^ 0)).image (· ^^^ 255) := by
    rw [Finset.image_image]
    refine Finset.image_congr fun p _ => ?_
    simp
  rw [this, Finset.card_image_of_injective]
  intro a c e
  have e : a ^^^ 255 = c ^^^ 255 := e
  have := congrArg (· ^^^ 255) e
  simpa [Nat.xor_assoc] using this

/-- **C86** (what holds) The bright pass that follows the dark one – `extract_pixel` has used `m_heap` as a table in
between, so the heap contains anything (`junk`) – completes and leaves the component tree of the inverted image. -/
theorem C86_bright_after_dark_partial (hI : ImageOK w h img 0) (hc : w * h ≤ 2 ^ 29) (h0 : b.top 0 = 0)
    (hg : grayCount w h img 0 < 256) (hr1 : buildTree w h img 0 true n1 b ls = .done m1) (junk : Nat → Option Nat) :
    ∃ ms, buildTree w h img 255 true (5 * (w * h)) { m1.toBuf with heap := junk } (preProcess w h img 0 true b ls).2
        = .done ms ∧
      IsComponentTree (Adj4 w h) (fun p => 255 - img p.1 p.2) (pixels w h) (memTree w ms) := by
  obtain ⟨_, h1, h2⟩ := pass_ms hI hc h0 (first_ready_ms w h img true b ls) hr1
  have hls : (preProcess w h img 0 true b ls).2 = levelSizes w h img := by simp [preProcess]
  rw [hls]
  have hI2 := hI.to255
  have hb := second_ready_ms (b := { m1.toBuf with heap := junk }) hI.img_lt h2
  obtain ⟨ms, hr⟩ := runs_ms (b := { m1.toBuf with heap := junk }) hI2 hc h1 (by rw [grayCount_255]; exact hg) hb
  refine ⟨ms, hr, ?_⟩
  refine ((pass_ms (b := { m1.toBuf with heap := junk }) hI2 hc h1 hb hr).1).values (fun p hp => ?_) (fun p q hpq => ⟨hpq.1, hpq.2.1⟩)
  rw [mem_pixels] at hp
  exact (xor_255 _ (hI.img_lt _ _ hp.1 hp.2)).symm

theorem mergeLoop_nreg (l : Nat) : ∀ (rest : List Flood.Comp) (c : Flood.Comp) (regs : Nat → Flood.Reg) (k : Nat)
    (m : Flood.Merged), Flood.mergeLoop l c rest regs k = some m → k ≤ m.nreg
  | [], _, _, _, _, e => by simp [Flood.mergeLoop] at e
  | [d], c, regs, k, m, e => by
    simp only [Flood.mergeLoop] at e
    split at e
    · cases e; exact le_refl _
    · cases e
  | d :: d2 :: rest, c, regs, k, m, e => by
    rw [Flood.mergeLoop] at e
    dsimp only at e
    split at e
    · cases e; exact le_refl _
    · split at e
      · cases e; exact Nat.le_succ _
      · exact mergeLoop_nreg l (d2 :: rest) _ _ k m e

theorem step_nreg {P : Patch} {hsize : Nat} {s s' : MSt}
    (h : FloodMem.step P hsize s = .next s' ∨ FloodMem.step P hsize s = .done s') : s.nreg ≤ s'.nreg := by
  unfold FloodMem.step at h
  split at h
  · unfold FloodMem.tour at h
    dsimp only at h
    split at h
    · split at h
      · split at h
        · rcases h with h | h <;> cases h
          exact Nat.le_succ _
        · rcases h with h | h <;> cases h
      · split at h
        · rcases h with h | h <;> cases h
          exact le_refl _
        · rcases h with h | h <;> cases h
    · rcases h with h | h <;> cases h
      exact le_refl _
  · unfold FloodMem.finish at h
    split at h
    · dsimp only at h
      split at h
      · split at h
        · rcases h with h | h <;> cases h
          exact le_refl _
        · split at h
          · rcases h with h | h <;> cases h
          · rcases h with h | h <;> cases h
            exact le_refl _
          · split at h
            · rcases h with h | h <;> cases h
            · split at h
              · rcases h with h | h <;> cases h
                exact Nat.le_succ _
              · split at h
                · rcases h with h | h <;> cases h
                · rename_i m hm
                  rcases h with h | h <;> cases h
                  exact mergeLoop_nreg _ _ _ _ _ _ hm
      · rcases h with h | h <;> cases h
    · rcases h with h | h <;> cases h

theorem run_nreg {P : Patch} {hsize : Nat} : ∀ (n : Nat) {s s' : MSt},
    FloodMem.run P hsize n s = .next s' ∨ FloodMem.run P hsize n s = .done s' → s.nreg ≤ s'.nreg
  | 0, s, s', h => by
    rcases h with h | h <;> cases h
    exact le_refl _
  | n + 1, s, s', h => by
    unfold FloodMem.run at h
    cases hs : FloodMem.step P hsize s with
    | next t =>
      rw [hs] at h
      exact le_trans (step_nreg (.inl hs)) (run_nreg n h)
    | done t =>
      rw [hs] at h
      rcases h with h | h <;> cases h
      exact step_nreg (.inr hs)
    | ub =>
      rw [hs] at h
      rcases h with h | h <;> cases h

theorem run_add {P : Patch} {hsize : Nat} : ∀ (n k : Nat) (s : MSt), FloodMem.run P hsize (n + k) s =
    match FloodMem.run P hsize n s with
    | .next s' => FloodMem.run P hsize k s'
    | o => o
  | 0, k, s => by simp [FloodMem.run]
  | n + 1, k, s => by
    rw [show n + 1 + k = (n + k) + 1 by omega]
    simp only [FloodMem.run]
    cases FloodMem.step P hsize s with
    | next t => exact run_add n k t
    | done t => rfl
    | ub => rfl

/-- Fewer regions than pixels. -/
theorem nreg_le_pixels (hT : IsComponentTree (Adj4 w h) (fun p => img p.1 p.2 ^^^ gm) (pixels w h) (memTree w ms)) :
    ms.nreg ≤ w * h := by
  have h1 : Finset.range ms.nreg ⊆ (pixels w h).image (memTree w ms).lab := by
    intro r hr
    obtain ⟨p, hp, e⟩ := hT.reg_lab r (Finset.mem_range.1 hr)
    exact Finset.mem_image.2 ⟨p, hp, e⟩
  have h2 := Finset.card_le_card h1
  have h3 := Finset.card_image_le (s := pixels w h) (f := (memTree w ms).lab)
  have h4 : (pixels w h).card = w * h := by simp [pixels]
  rw [Finset.card_range] at h2
  omega

/-- **C86** At no moment of a pass are there more regions than the `width * height` entries of `m_mser_regions`
(79–88), so no region is written outside of the array. -/
theorem C86_regions_fit (hI : ImageOK w h img gm) (hc : w * h ≤ 2 ^ 29) (h0 : b.top 0 = 0)
    (hg : grayCount w h img gm < 256)
    (hb : Ready (msPatch w h img gm) (b.top 0) (preProcess w h img gm fromMin b ls).1)
    (hr : buildTree w h img gm fromMin n b ls = .next ms ∨ buildTree w h img gm fromMin n b ls = .done ms) :
    ms.nreg ≤ w * h := by
  rcases hr with hr | hr
  · obtain ⟨m, hm⟩ := runs_ms hI hc h0 hg hb
    have hT := (pass_ms hI hc h0 hb hm).1
    have hle := nreg_le_pixels hT
    refine le_trans ?_ hle
    have hr' : FloodMem.run (msPatch w h img gm) (heapCells w h) n (FloodMem.init (msPatch w h img gm)
      (preProcess w h img gm fromMin b ls).1) = .next ms := hr
    have hm' : FloodMem.run (msPatch w h img gm) (heapCells w h) (5 * (w * h)) (FloodMem.init (msPatch w h img gm)
      (preProcess w h img gm fromMin b ls).1) = .done m := hm
    by_cases hn : n ≤ 5 * (w * h)
    · obtain ⟨k, hk⟩ := Nat.exists_eq_add_of_le hn
      rw [hk, run_add, hr'] at hm'
      exact run_nreg k (.inr hm')
    · obtain ⟨k, hk⟩ := Nat.exists_eq_add_of_le (Nat.le_of_not_le hn)
      rw [hk, run_add, hm'] at hr'
      cases hr'
  · exact nreg_le_pixels (pass_ms hI hc h0 hb hr).1

/-- The hypotheses of the theorems above hold of the sample image, for both passes. -/
example : ∃ m1 ms, buildTree 3 2 sampleImg 0 true 30 emptyBuf (fun _ => 0) = .done m1 ∧
    buildTree 3 2 sampleImg 255 true 30 { m1.toBuf with heap := fun a => some a } (preProcess 3 2 sampleImg 0 true emptyBuf (fun _ => 0)).2
      = .done ms ∧ ms.nreg ≤ 6 := by
  have hI : ImageOK 3 2 sampleImg 0 :=
    ⟨by decide, by decide, fun x y _ _ => by unfold sampleImg; split <;> [skip; split] <;> decide, by decide⟩
  obtain ⟨m1, h1, _⟩ := C86_dark_partial (b := emptyBuf) (ls := fun _ => 0) (fromMin := true) hI (by decide) rfl (by decide)
  obtain ⟨m2, h2, hT⟩ := C86_bright_after_dark_partial hI (by decide) rfl (by decide) h1 (fun a => some a)
  obtain ⟨_, e1, e2⟩ := pass_ms hI (by decide) rfl (first_ready_ms 3 2 sampleImg true emptyBuf (fun _ => 0)) h1
  refine ⟨m1, m2, h1, h2, C86_regions_fit (b := { m1.toBuf with heap := fun a => some a }) hI.to255 (by decide) e1 (by rw [grayCount_255]; decide) ?_ (.inr h2)⟩
  have hls : (preProcess 3 2 sampleImg 0 true emptyBuf (fun _ => 0)).2 = levelSizes 3 2 sampleImg := by simp [preProcess]
  rw [hls]
  exact second_ready_ms (b := { m1.toBuf with heap := fun a => some a }) hI.img_lt e2

/-- State of the flood after walking `k` pixels down a gradient in the first row. -/
private structure WalkM (w k : Nat) (s : St) : Prop where
  cur : s.cur = idx w k 0
  gray : s.curGray = 255 - k
  nbr : s.nbr = 1
  len : s.comps.length = k + 2
  cnt : ∀ x, k < x → x < w → s.cnt (idx w x 0) = 0

private theorem walkM_init (hw : 256 ≤ w) (hh : 1 ≤ h) (hrow : ∀ x < 256, img x 0 = 255 - x) :
    WalkM w 0 (Flood.init (msPatch w h img 0)) := by
  have hs : (msPatch w h img 0).start = idx w 0 0 := by simp [msPatch, gridPatch, idx]; omega
  refine ⟨hs, ?_, rfl, rfl, ?_⟩
  · show (gridPatch w h img 0).gray (msPatch w h img 0).start = _
    rw [hs, gridPatch_gray (by omega), hrow 0 (by omega)]; rfl
  · intro x h1 h2
    have hne : idx w x 0 ≠ (msPatch w h img 0).start := by
      rw [hs]; intro e; have := idx_inj (by omega) (by omega) e; omega
    have hm : idx w x 0 ∈ (msPatch w h img 0).px := mem_px (img := img) (gm := 0) |>.2 ⟨x, 0, h2, hh, rfl⟩
    simp [Flood.init, Function.update_of_ne hne, hm]

private theorem walkM_step (hw : 256 ≤ w) (hrow : ∀ x < 256, img x 0 = 255 - x)
    {k : Nat} {s : St} (hk : k < 255) (hW : WalkM w k s) :
    (k < 254 → ∃ s', Flood.step (msPatch w h img 0) s = .next s' ∧ WalkM w (k + 1) s') ∧
    (k = 254 → Flood.step (msPatch w h img 0) s = .ub) := by
  have hnb : (msPatch w h img 0).nb s.cur s.nbr = idx w (k + 1) 0 := by
    rw [hW.cur, hW.nbr]; simp only [msPatch, nbM, idx]; omega
  have hcnt := hW.cnt (k + 1) (by omega) (by omega)
  have hgr : (msPatch w h img 0).gray (idx w (k + 1) 0) = 255 - (k + 1) := by
    show (gridPatch w h img 0).gray (idx w (k + 1) 0) = _
    rw [gridPatch_gray (by omega), hrow (k + 1) (by omega)]; simp
  have hlt : 255 - (k + 1) < s.curGray := by rw [hW.gray]; omega
  have h1 : s.nbr ≤ (msPatch w h img 0).nd := by rw [hW.nbr]; simp [msPatch, gridPatch]
  have hcap : (msPatch w h img 0).cap = 256 := rfl
  constructor
  · intro hk'
    simp only [Flood.step, h1, if_true, Flood.tour, hnb, hcnt, hgr, hlt, hW.len, hcap]
    rw [if_pos (by omega)]
    refine ⟨_, rfl, rfl, rfl, rfl, by simp [hW.len], ?_⟩
    intro x hx hxw
    simp only
    have e1 : idx w x 0 ≠ s.cur := by
      rw [hW.cur]; intro e; have := idx_inj (by omega) (by omega) e; omega
    have e2 : idx w x 0 ≠ idx w (k + 1) 0 := by
      intro e; have := idx_inj (by omega) (by omega) e; omega
    rw [Function.update_of_ne e1, Function.update_of_ne e2]
    exact hW.cnt x (by omega) hxw
  · intro hk'
    simp only [Flood.step, h1, if_true, Flood.tour, hnb, hcnt, hgr, hlt, hW.len, hcap]
    rw [if_neg (by omega)]

/-- **C86** (violated) On every image at least 256 pixels wide whose first row starts with the gradient 255, 254, …, 0
the dark pass writes past the 256 entries of `m_comp`. -/
theorem C86_full_range_overruns (hI : ImageOK w h img 0) (hc : w * h ≤ 2 ^ 29) (h0 : b.top 0 = 0) (hw : 256 ≤ w)
    (hrow : ∀ x < 256, img x 0 = 255 - x) : buildTree w h img 0 fromMin 255 b ls = .ub := by
  have key : ∀ n k s, n + k = 254 → WalkM w k s → Flood.run (msPatch w h img 0) (n + 1) s = .ub := by
    intro n
    induction n with
    | zero =>
      intro k s hk hW
      have := (walkM_step (h := h) hw hrow (by omega) hW).2 (by omega)
      simp [Flood.run, this]
    | succ n ih =>
      intro k s hk hW
      obtain ⟨s', h1, h2⟩ := (walkM_step (h := h) hw hrow (by omega) hW).1 (by omega)
      rw [Flood.run, h1]
      exact ih (k + 1) s' (by omega) h2
  have hcard : (msPatch w h img 0).px.card = w * h := gridPatch_card (img := img) (gm := 0)
  have hc' : (msPatch w h img 0).px.card ≤ 2 ^ 29 := by rw [hcard]; exact hc
  have hz : b.top 0 + ((msPatch w h img 0).px.card + 257) ≤ heapCells w h := by
    rw [hcard, h0, Nat.zero_add]; exact Nat.add_le_add_left (by decide) _
  have hu := key 254 0 _ rfl (walkM_init hw hI.h_pos hrow)
  obtain ⟨F, h1, _⟩ := pass_sim (hsize := heapCells w h) (ok_ms hI) rfl hz hc'
    (first_ready_ms w h img fromMin b ls) 255
  rw [hu] at h1
  show FloodMem.run _ _ _ _ = _
  revert h1
  cases FloodMem.run (msPatch w h img 0) (heapCells w h) 255
      (FloodMem.init (msPatch w h img 0) (preProcess w h img 0 fromMin b ls).1) with
  | next s => intro h1; exact absurd h1 id
  | done s => intro h1; exact absurd h1 id
  | ub => intro _; rfl

/-- One row with that gradient. -/
def rampImg (x _y : Nat) : Nat := 255 - x

example : ImageOK 256 1 rampImg 0 ∧ 256 * 1 ≤ 2 ^ 29 ∧ ∀ x < 256, rampImg x 0 = 255 - x :=
  ⟨⟨by norm_num, by norm_num, fun x y _ _ => by unfold rampImg; omega, by norm_num⟩, by norm_num, fun _ _ => by rw [rampImg]⟩

/-- **C86** (violated) If only bright regions are wanted, the histogram is that of the image, not of the inverted image:
on two black pixels the pass ends with two regions, and the second counts three pixels. -/
theorem C86_bright_only_wrong : ∃ ms, buildTree 2 1 (fun _ _ => 0) 255 false 40 emptyBuf (fun _ => 0) = .done ms ∧
    ms.nreg = 2 ∧ (ms.regs 1).size = 3 ∧
    ¬ IsComponentTree (Adj4 2 1) (fun _ => 255) (pixels 2 1) (memTree 2 ms) := by
  have h : (match buildTree 2 1 (fun _ _ => 0) 255 false 40 emptyBuf (fun _ => 0) with
      | .done s => s.nreg == 2 && (s.regs 1).size == 3
      | _ => false) = true := by decide +kernel
  revert h
  cases hr : buildTree 2 1 (fun _ _ => 0) 255 false 40 emptyBuf (fun _ => 0) with
  | next s => simp
  | ub => simp
  | done s =>
    intro h
    simp only [Bool.and_eq_true, beq_iff_eq] at h
    refine ⟨s, rfl, h.1, h.2, fun hT => ?_⟩
    classical
    have h1 := hT.size_card (r := 1) (show 1 < s.nreg by omega)
    have h2 := Finset.card_filter_le (pixels 2 1) (fun p => (memTree 2 s).Under 1 p)
    have h3 : (pixels 2 1).card = 2 := by decide
    have h4 : (memTree 2 s).size 1 = 3 := h.2
    omega

/-- **C86** (violated) In 8-neighbour mode no pixel below the first row is ever visited: its direction counter is 0 after
any number of steps. -/
theorem C86_eight_lower_rows_never_visited (hw : 1 ≤ w) (hh : 1 ≤ h) (n : Nat) {s : St}
    (hr : Flood.run (msPatch8 w h img gm) n (Flood.init (msPatch8 w h img gm)) = .next s ∨
      Flood.run (msPatch8 w h img gm) n (Flood.init (msPatch8 w h img gm)) = .done s)
    {x y : Nat} (hx : x < w) (hy : 1 ≤ y) (hy' : y < h) : s.cnt (idx w x y) = 0 :=
  C16_lower_rows_never_visited hw hh n hr hx hy hy'

/-- **C86** (violated) With a mask – whatever it shows – the image is not copied: the first gray value is read from
memory nobody wrote.  Without mask it is the value of the first pixel. -/
theorem C86_mask_reads_unwritten (hw : 1 ≤ w) (hh : 1 ≤ h) :
    Ms.firstGray false w h img gm = none ∧ Ms.firstGray true w h img gm = some (img 0 0 ^^^ gm) := by
  have hs : (gridPatch w h img 0).start = idx w 0 0 := by simp [gridPatch, idx]; omega
  constructor
  · simp [Ms.firstGray, Ms.extended]
  · have hm : idx w 0 0 ∈ (gridPatch w h img 0).px := mem_px.2 ⟨0, 0, hw, hh, rfl⟩
    simp [Ms.firstGray, Ms.extended, hs, hm, gridPatch_gray (show 0 < w from hw)]

end Verif.Props
