import Verif.Proof.Grid
import Verif.Proof.Tree

/-!
# Properties C01–C05, C07, C08 (flooding of one patch)

The image is `img x y`, `gm` the gray mask (0 or 255 in the code, any 8-bit value here);
`run (gridPatch w h img gm) n (init _)` is `n` elementary steps of `make_tree_patch`.
-/

namespace Verif.Props

open Verif.Spec Verif.Flood
open Relation (ReflTransGen)

/-- An admissible patch: at least one pixel, 8-bit gray values. -/
structure ImageOK (w h : Nat) (img : Nat → Nat → Nat) (gm : Nat) : Prop where
  w_pos : 1 ≤ w
  h_pos : 1 ≤ h
  img_lt : ∀ x y, x < w → y < h → img x y < 256
  gm_lt : gm < 256

/-- A 3×2 image with a dark and a bright spot. -/
def sampleImg (x y : Nat) : Nat := if x = 0 ∧ y = 1 then 3 else if x = 2 then 9 else 7

example : ImageOK 3 2 sampleImg 0 :=
  ⟨by decide, by decide, fun x y _ _ => by unfold sampleImg; split <;> [skip; split] <;> decide, by decide⟩

/-- The run of the sample ends; it is the case shown for all theorems below with a
`… = .done s` hypothesis. -/
example : ∃ s, run (gridPatch 3 2 sampleImg 0) 30 (init (gridPatch 3 2 sampleImg 0)) = .done s ∧
    s.nreg = 3 ∧ (s.regs 2).size = 6 := by
  have h : (match run (gridPatch 3 2 sampleImg 0) 30 (init (gridPatch 3 2 sampleImg 0)) with
      | .done s => s.nreg == 3 && (s.regs 2).size == 6
      | _ => false) = true := by decide +kernel
  revert h
  cases run (gridPatch 3 2 sampleImg 0) 30 (init (gridPatch 3 2 sampleImg 0)) with
  | done s => intro h; exact ⟨s, rfl, by simpa using h⟩
  | next s => simp
  | ub => simp

variable {w h : Nat} {img : Nat → Nat → Nat} {gm : Nat}

theorem ok_of (hI : ImageOK w h img gm) : (gridPatch w h img gm).OK :=
  gridPatch_ok hI.w_pos hI.h_pos hI.img_lt hI.gm_lt

/-- **C01** When flooding has ended, the labelled regions form the component tree of the patch
under 4-adjacency: every region's pixels are exactly one connected component of the pixels not
brighter than the region's level. -/
theorem C01_flood_builds_component_tree (hI : ImageOK w h img gm) {n : Nat} {s : St}
    (hd : run (gridPatch w h img gm) n (init (gridPatch w h img gm)) = .done s) :
    IsComponentTree (Adj4 w h) (fun p => img p.1 p.2 ^^^ gm) (pixels w h) (gridTree w s) := by
  have hP := ok_of hI
  have := run_inv hP n (inv_init hP)
  rw [hd] at this
  obtain ⟨⟨c, hc⟩, _⟩ := this
  exact gridTree_isTree hc.isTree

theorem adj4_symm (p q : Nat × Nat) (hpq : Adj4 w h p q) : Adj4 w h q p := by
  obtain ⟨h1, h2, h3⟩ := hpq
  exact ⟨h2, h1, by omega⟩

/-- **C02** Every threshold component occurs, exactly once: for every pixel `p` and every level
`l` not darker than it there is exactly one region containing `p` whose level interval (own level
up to, but excluding, the parent's level) contains `l`, and its pixels are those connected to `p`
at level `l`. -/
theorem C02_threshold_components_exactly_once (hI : ImageOK w h img gm) {n : Nat} {s : St}
    (hd : run (gridPatch w h img gm) n (init (gridPatch w h img gm)) = .done s)
    {p : Nat × Nat} (hp : p ∈ pixels w h) {l : Nat} (hl : img p.1 p.2 ^^^ gm ≤ l) :
    ∃ r, ((gridTree w s).isReg r ∧ (gridTree w s).Under r p ∧ (gridTree w s).gray r ≤ l ∧
        (∀ r', (gridTree w s).parent r = some r' → l < (gridTree w s).gray r')) ∧
      (∀ r', ((gridTree w s).isReg r' ∧ (gridTree w s).Under r' p ∧ (gridTree w s).gray r' ≤ l ∧
        (∀ x, (gridTree w s).parent r' = some x → l < (gridTree w s).gray x)) → r' = r) ∧
      ∀ q ∈ pixels w h, ((gridTree w s).Under r q ↔
        LConn (Adj4 w h) (fun p => img p.1 p.2 ^^^ gm) l p q) := by
  have hT := C01_flood_builds_component_tree hI hd
  obtain ⟨r, h1, h2, h3, h4, h5⟩ := hT.threshold adj4_symm (fun a b hab => hab.2.1) hp hl
  exact ⟨r, ⟨h1, h2, h3, h4⟩,
    fun r' ⟨a1, a2, a3, a4⟩ => hT.threshold_unique hp a2 h2 a3 h3 a4 h4, h5⟩

/-- **C02** (same gray value) Two pixels carry the same region label exactly when they have the
same gray value and are connected through pixels no brighter than it. -/
theorem C02_same_label_iff (hI : ImageOK w h img gm) {n : Nat} {s : St}
    (hd : run (gridPatch w h img gm) n (init (gridPatch w h img gm)) = .done s)
    {p q : Nat × Nat} (hp : p ∈ pixels w h) (hq : q ∈ pixels w h) :
    s.lab (idx w p.1 p.2) = s.lab (idx w q.1 q.2) ↔
      img p.1 p.2 ^^^ gm = img q.1 q.2 ^^^ gm ∧
      LConn (Adj4 w h) (fun p => img p.1 p.2 ^^^ gm) (img p.1 p.2 ^^^ gm) p q :=
  (C01_flood_builds_component_tree hI hd).lab_eq hp hq

open Classical in
/-- **C03** The stored size of a region is the number of pixels of its component. -/
theorem C03_sizes_are_pixel_counts (hI : ImageOK w h img gm) {n : Nat} {s : St}
    (hd : run (gridPatch w h img gm) n (init (gridPatch w h img gm)) = .done s)
    {r : Nat} (hr : r < s.nreg) {p : Nat × Nat} (hp : p ∈ pixels w h)
    (hl : s.lab (idx w p.1 p.2) = r) :
    (s.regs r).size = ((pixels w h).filter (fun q =>
      LConn (Adj4 w h) (fun p => img p.1 p.2 ^^^ gm) (img p.1 p.2 ^^^ gm) p q)).card := by
  have hT := C01_flood_builds_component_tree hI hd
  have hg : (gridTree w s).gray r = img p.1 p.2 ^^^ gm := by rw [← hT.lab_gray p hp, ← hl]; rfl
  have hu : (gridTree w s).Under r p := by rw [← hl]; exact .refl
  refine hT.size_eq r hr _ (fun q => ?_)
  rw [Finset.mem_filter]
  constructor
  · rintro ⟨h1, h2⟩; exact ⟨h1, (hT.comp r hr p hp hu q h1).2 (by rwa [hg])⟩
  · rintro ⟨h1, h2⟩; exact ⟨h1, by rw [← hg]; exact (hT.comp r hr p hp hu q h1).1 h2⟩

/-- **C03** Every region has such a pixel, so the previous theorem speaks about all of them. -/
theorem C03_every_region_has_pixel (hI : ImageOK w h img gm) {n : Nat} {s : St}
    (hd : run (gridPatch w h img gm) n (init (gridPatch w h img gm)) = .done s)
    {r : Nat} (hr : r < s.nreg) : ∃ p ∈ pixels w h, s.lab (idx w p.1 p.2) = r :=
  (C01_flood_builds_component_tree hI hd).reg_lab r hr

/-- Number of different gray values in the patch. -/
def grayCount (w h : Nat) (img : Nat → Nat → Nat) (gm : Nat) : Nat :=
  ((pixels w h).image (fun p => img p.1 p.2 ^^^ gm)).card

theorem gray_image : ((gridPatch w h img gm).px.image (gridPatch w h img gm).gray).card
    = grayCount w h img gm := by
  unfold grayCount
  congr 1
  ext v
  simp only [Finset.mem_image]
  constructor
  · rintro ⟨i, hi, rfl⟩
    obtain ⟨x, y, hx, hy, rfl⟩ := mem_px.1 hi
    exact ⟨(x, y), mem_pixels.2 ⟨hx, hy⟩, by rw [gridPatch_gray hx]⟩
  · rintro ⟨p, hp, rfl⟩
    have := mem_pixels.1 hp
    exact ⟨idx w p.1 p.2, mem_px.2 ⟨_, _, this.1, this.2, rfl⟩, gridPatch_gray this.1⟩

/-- **C04** With fewer than 256 different gray values the loop ends after exactly
`5·w·h` elementary steps (four neighbour directions and one completion per pixel) – not
earlier – whatever the gray values are. -/
theorem C04_exact_step_count (hI : ImageOK w h img gm) (hg : grayCount w h img gm < 256) :
    (∃ s, run (gridPatch w h img gm) (5 * (w * h)) (init (gridPatch w h img gm)) = .done s) ∧
    ∀ n < 5 * (w * h), ∃ s, run (gridPatch w h img gm) n (init (gridPatch w h img gm)) = .next s := by
  have hP := ok_of hI
  have hcap : (gridPatch w h img gm).cap = 256 := rfl
  have hnd : (gridPatch w h img gm).nd = 4 := rfl
  constructor
  · have := run_inv hP (5 * (w * h)) (inv_init hP)
    revert this
    cases hr : run (gridPatch w h img gm) (5 * (w * h)) (init (gridPatch w h img gm)) with
    | next s' =>
      simp only
      rintro ⟨cs, F, h1, h2⟩
      have := h1.work_lt
      rw [h2, work_init, gridPatch_card, hnd] at this
      omega
    | done s' => exact fun _ => ⟨s', rfl⟩
    | ub => simp only; rw [gray_image, hcap]; omega
  · intro n hn
    have := run_inv hP n (inv_init hP)
    revert this
    cases hr : run (gridPatch w h img gm) n (init (gridPatch w h img gm)) with
    | next s' => exact fun _ => ⟨s', rfl⟩
    | done s' =>
      simp only
      rintro ⟨_, h2⟩
      rw [work_init, gridPatch_card, hnd] at h2
      omega
    | ub => simp only; rw [gray_image, hcap]; omega

example : grayCount 3 2 sampleImg 0 < 256 := by decide

/-- **C04** For every image whatsoever the loop has stopped after `5·w·h` steps: it has completed,
or it has overrun the component stack (C08). -/
theorem C04_always_stops (hI : ImageOK w h img gm) :
    (∃ s, run (gridPatch w h img gm) (5 * (w * h)) (init (gridPatch w h img gm)) = .done s) ∨
    run (gridPatch w h img gm) (5 * (w * h)) (init (gridPatch w h img gm)) = .ub := by
  have hP := ok_of hI
  have hnd : (gridPatch w h img gm).nd = 4 := rfl
  have := run_inv hP (5 * (w * h)) (inv_init hP)
  revert this
  cases hr : run (gridPatch w h img gm) (5 * (w * h)) (init (gridPatch w h img gm)) with
  | next s' =>
    simp only
    rintro ⟨cs, F, h1, h2⟩
    have := h1.work_lt
    rw [h2, work_init, gridPatch_card, hnd] at this
    omega
  | done s' => exact fun _ => .inl ⟨s', rfl⟩
  | ub => exact fun _ => .inr rfl

/-- Every pixel can be reached from the first one. -/
theorem grid_connected : ∀ p ∈ pixels w h, ReflTransGen (Adj4 w h) (0, 0) p := by
  intro p hp
  rw [mem_pixels] at hp
  have hrow : ∀ y, y < h → ReflTransGen (Adj4 w h) (0, 0) (0, y) := by
    intro y
    induction y with
    | zero => intro _; exact .refl
    | succ y ih =>
      intro hy
      refine .tail (ih (by omega)) ⟨mem_pixels.2 ?_, mem_pixels.2 ?_, ?_⟩
      · simp; omega
      · simp; omega
      · simp
  have hcol : ∀ x, x < w → ReflTransGen (Adj4 w h) (0, 0) (x, p.2) := by
    intro x
    induction x with
    | zero => intro _; exact hrow _ hp.2
    | succ x ih =>
      intro hx
      refine .tail (ih (by omega)) ⟨mem_pixels.2 ?_, mem_pixels.2 ?_, ?_⟩
      · simp; omega
      · simp; omega
      · simp
  exact hcol p.1 hp.1

/-- **C05** A single root containing every pixel; gray level and size strictly increase from
child to parent. -/
theorem C05_single_rooted_tree (hI : ImageOK w h img gm) {n : Nat} {s : St}
    (hd : run (gridPatch w h img gm) n (init (gridPatch w h img gm)) = .done s) :
    (∃ r < s.nreg, (s.regs r).parent = none ∧
      (∀ r' < s.nreg, (s.regs r').parent = none → r' = r) ∧
      ∀ p ∈ pixels w h, (gridTree w s).Under r p) ∧
    ∀ r < s.nreg, ∀ r', (s.regs r).parent = some r' →
      r' < s.nreg ∧ (s.regs r).gray < (s.regs r').gray ∧ (s.regs r).size < (s.regs r').size := by
  have hT := C01_flood_builds_component_tree hI hd
  have hw := hI.w_pos
  have hh := hI.h_pos
  constructor
  · refine hT.root (fun a b hab => ⟨hab.1, hab.2.1⟩) adj4_symm (s := (0, 0)) (mem_pixels.2 ⟨hw, hh⟩) grid_connected
  · intro r hr r' hp
    obtain ⟨h1, h2⟩ := hT.parent_reg r hr r' hp
    exact ⟨h1, h2, hT.size_lt hr hp⟩

/-- **C07** When flooding has ended no pixel is waiting at any level. -/
theorem C07_heap_empty_after_pass (hI : ImageOK w h img gm) {n : Nat} {s : St}
    (hd : run (gridPatch w h img gm) n (init (gridPatch w h img gm)) = .done s) (l : Nat) :
    s.heap l = [] := by
  have hP := ok_of hI
  have := run_inv hP n (inv_init hP)
  rw [hd] at this
  obtain ⟨⟨c, hc⟩, _⟩ := this
  exact hc.heap l

/-- **C08** (what holds) With fewer than 256 different gray values the component stack never
overruns its 256 entries. -/
theorem C08_stack_fits_partial (hI : ImageOK w h img gm) (hg : grayCount w h img gm < 256) (n : Nat) :
    run (gridPatch w h img gm) n (init (gridPatch w h img gm)) ≠ .ub := by
  have hP := ok_of hI
  have := run_inv hP n (inv_init hP)
  intro hu
  rw [hu] at this
  simp only at this
  rw [gray_image] at this
  have hcap : (gridPatch w h img gm).cap = 256 := rfl
  omega

/-- State of the flood after walking `k` pixels down a gradient in the first row. -/
private structure Walk (w k : Nat) (s : St) : Prop where
  cur : s.cur = idx w k 0
  gray : s.curGray = 255 - k
  nbr : s.nbr = 1
  len : s.comps.length = k + 2
  cnt : ∀ x, k < x → x < w → s.cnt (idx w x 0) = 0

private theorem walk_init (hw : 256 ≤ w) (hh : 1 ≤ h) (hrow : ∀ x < 256, img x 0 = 255 - x) :
    Walk w 0 (init (gridPatch w h img 0)) := by
  have hs : (gridPatch w h img 0).start = idx w 0 0 := by simp [gridPatch, idx]; omega
  refine ⟨hs, ?_, rfl, rfl, ?_⟩
  · show (gridPatch w h img 0).gray (gridPatch w h img 0).start = _
    rw [hs, gridPatch_gray (by omega), hrow 0 (by omega)]; rfl
  · intro x h1 h2
    have hne : idx w x 0 ≠ (gridPatch w h img 0).start := by
      rw [hs]; intro e; have := idx_inj (by omega) (by omega) e; omega
    have hm : idx w x 0 ∈ (gridPatch w h img 0).px := mem_px.2 ⟨x, 0, h2, hh, rfl⟩
    simp [init, Function.update_of_ne hne, hm]

private theorem walk_step (hw : 256 ≤ w) (hrow : ∀ x < 256, img x 0 = 255 - x)
    {k : Nat} {s : St} (hk : k < 255) (hW : Walk w k s) :
    (k < 254 → ∃ s', step (gridPatch w h img 0) s = .next s' ∧ Walk w (k + 1) s') ∧
    (k = 254 → step (gridPatch w h img 0) s = .ub) := by
  have hnb : (gridPatch w h img 0).nb s.cur s.nbr = idx w (k + 1) 0 := by
    rw [hW.cur, hW.nbr]; simp only [gridPatch, nb4, idx]; omega
  have hcnt := hW.cnt (k + 1) (by omega) (by omega)
  have hgr : (gridPatch w h img 0).gray (idx w (k + 1) 0) = 255 - (k + 1) := by
    rw [gridPatch_gray (by omega), hrow (k + 1) (by omega)]; simp
  have hlt : 255 - (k + 1) < s.curGray := by rw [hW.gray]; omega
  have h1 : s.nbr ≤ (gridPatch w h img 0).nd := by rw [hW.nbr]; simp [gridPatch]
  have hcap : (gridPatch w h img 0).cap = 256 := rfl
  constructor
  · intro hk'
    simp only [step, h1, if_true, tour, hnb, hcnt, hgr, hlt, hW.len, hcap]
    rw [if_pos (by omega)]
    refine ⟨_, rfl, rfl, rfl, rfl, by simp [hW.len], ?_⟩
    intro x hx hxw
    simp only
    have e1 : idx w x 0 ≠ s.cur := by
      rw [hW.cur]; intro e; have := idx_inj (by omega) (by omega) e; omega
    have e2 : idx w x 0 ≠ idx w (k + 1) 0 := by
      intro e; have := idx_inj (by omega) (by omega) e; omega
    rw [Function.update_of_ne e1, Function.update_of_ne e2]
    exact hW.cnt x (by omega) hxw
  · intro hk'
    simp only [step, h1, if_true, tour, hnb, hcnt, hgr, hlt, hW.len, hcap]
    rw [if_neg (by omega)]

/-- **C08** (violated) Every image at least 256 pixels wide whose first row starts with the
gradient 255, 254, …, 0 overruns the component stack after 255 steps. -/
theorem C08_stack_overrun (hw : 256 ≤ w) (hh : 1 ≤ h) (hrow : ∀ x < 256, img x 0 = 255 - x) :
    run (gridPatch w h img 0) 255 (init (gridPatch w h img 0)) = .ub := by
  have key : ∀ n k s, n + k = 254 → Walk w k s → run (gridPatch w h img 0) (n + 1) s = .ub := by
    intro n
    induction n with
    | zero =>
      intro k s hk hW
      have := (walk_step (h := h) hw hrow (by omega) hW).2 (by omega)
      simp [run, this]
    | succ n ih =>
      intro k s hk hW
      obtain ⟨s', h1, h2⟩ := (walk_step (h := h) hw hrow (by omega) hW).1 (by omega)
      rw [run, h1]
      exact ih (k + 1) s' (by omega) h2
  exact key 254 0 _ rfl (walk_init hw hh hrow)

/-- **C08** is false as stated for all images. -/
theorem C08_stack_fits_false : ¬ ∀ (w h : Nat) (img : Nat → Nat → Nat), ImageOK w h img 0 →
    ∀ n, run (gridPatch w h img 0) n (init (gridPatch w h img 0)) ≠ .ub := by
  intro hall
  refine hall 256 1 (fun x _ => 255 - x) ⟨by decide, by decide, fun x y _ _ => ?_, by decide⟩ 255
    (C08_stack_overrun (by decide) (by decide) (fun x _ => rfl))
  omega

end Verif.Props
