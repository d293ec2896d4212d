import Verif.Proof.AutoWindow

/-!
# Properties C144–C145: the automatic thresholds of `img_auto_threshold_canny`

`cells c` are the cells after all windows of the image; `cellOf` is the cell the threshold of a pixel is taken from.
-/

namespace Verif.Props

open Verif.Spec
open Verif.AutoWindow (Cfg cells cellOf Cell Fit cells_spec pixel_in_window windows value look)

/-- **C144** (partial: the size of the windows is at least 4 and has with `s / 4 = t` the remainder `s % 4 ≤ t`; exact arithmetic).  The windows
stay in the image; the number of a cell is the sum, over the windows that contain the cell, of the number of edge pixels of the window; its
mean is the sum of their magnitudes divided by that number, 0 without edge pixels; its flags are the number of such windows with an edge pixel
and at least `dense` of them. -/
theorem C144_mean_partial (c : Cfg) (h4 : 4 ≤ c.size) (hr : c.size % 4 ≤ c.size / 4) :
    ∃ s, cells c = some s ∧ ∀ i j,
      (s i j).count = (∑ v ∈ windowsOf c.rows c.cols (c.size / 4) with coversCell i j v,
        winSum (fun y x => if c.edge y x = true then (1 : Int) else 0) c.rows c.cols (c.size / 4) c.size v) ∧
      (s i j).mean = (∑ v ∈ windowsOf c.rows c.cols (c.size / 4) with coversCell i j v,
        winSum (fun y x => if c.edge y x = true then c.mag y x else 0) c.rows c.cols (c.size / 4) c.size v) / ((s i j).count : Rat) ∧
      (s i j).flags = ((windowsOf c.rows c.cols (c.size / 4)).filter fun v => coversCell i j v ∧
        0 < winSum (fun y x => if c.edge y x = true then (1 : Int) else 0) c.rows c.cols (c.size / 4) c.size v ∧
        c.dense ≤ winSum (fun y x => if c.edge y x = true then (1 : Int) else 0) c.rows c.cols (c.size / 4) c.size v).card := by
  obtain ⟨s, h1, h2⟩ := cells_spec ⟨h4, hr⟩
  refine ⟨s, h1, fun i j => ⟨h2.count i j, ?_, h2.flags i j⟩⟩
  by_cases h0 : (s i j).count = 0
  · rw [h2.none i j h0, h0, Int.cast_zero, div_zero]
  · have h0' : ((s i j).count : Rat) ≠ 0 := by exact_mod_cast h0
    rw [eq_div_iff h0', h2.mean i j]
    rfl

/-- A 6 × 5 image with windows of 4 pixels. -/
def autoWin : Cfg := ⟨6, 5, fun y x => decide ((y + x) % 3 = 0), fun y x => (10 * y + x : Nat), 4, 6⟩

example : 4 ≤ autoWin.size ∧ autoWin.size % 4 ≤ autoWin.size / 4 := by decide

example : (cells autoWin).map (fun s => [(s 0 0).count, (s 2 2).count, (s 5 4).count]) = some [6, 32, 6] ∧
    (cells autoWin).map (fun s => [(s 0 0).flags, (s 2 2).flags, (s 5 4).flags]) = some [1, 2, 1] := by decide +kernel

/-- C144 does not hold of every size: windows of 7 pixels leave an image with 6 rows and columns. -/
theorem not_C144_seven : cells ⟨6, 6, fun _ _ => true, fun _ _ => 1, 7, 1⟩ = none := by decide +kernel

/-- C144 does not hold of a size below 4: the step is 0, and the number of windows a division by it. -/
theorem not_C144_small (c : Cfg) (h : c.size < 4) : cells c = none := by
  unfold cells
  exact if_pos (by unfold Cfg.step; omega)

/-- **C145** (partial: the image has at least a fourth of the size of the windows as rows and columns).  Each pixel has a cell, and it lies in
every window its cell belongs to. -/
theorem C145_cell_partial (c : Cfg) (h4 : 4 ≤ c.size) (hr : c.size % 4 ≤ c.size / 4) (h1 : c.size / 4 ≤ c.rows) (h2 : c.size / 4 ≤ c.cols)
    (s : Nat → Nat → Cell) (y x : Nat) (hy : y < c.rows) (hx : x < c.cols) :
    ∃ i j, cellOf c s y x = some (s i j) ∧ ∀ v ∈ windowsOf c.rows c.cols (c.size / 4), coversCell i j v →
      (c.size / 4 * v.1 ≤ y ∧ y ≤ winStop c.rows (c.size / 4) c.size v.1) ∧
      (c.size / 4 * v.2 ≤ x ∧ x ≤ winStop c.cols (c.size / 4) c.size v.2) := by
  have hF : Fit c := ⟨h4, hr⟩
  have hst : c.step = c.size / 4 := rfl
  have hpos : 0 < c.step := by omega
  have k1 : 1 ≤ c.rows / (c.size / 4) := by
    rw [← hst] at h1 ⊢; exact Nat.div_pos h1 hpos
  have k2 : 1 ≤ c.cols / (c.size / 4) := by
    rw [← hst] at h2 ⊢; exact Nat.div_pos h2 hpos
  refine ⟨min (y / (c.size / 4)) (c.rows / (c.size / 4) - 1), min (x / (c.size / 4)) (c.cols / (c.size / 4) - 1), ?_, ?_⟩
  · unfold cellOf
    rw [if_neg (by omega), hF.nr, hF.nc, hst]
    dsimp only
    have e1 : (min ((y / (c.size / 4) : Nat) : Int) (((c.rows / (c.size / 4) : Nat) : Int) - 1)) =
        ((min (y / (c.size / 4)) (c.rows / (c.size / 4) - 1) : Nat) : Int) := by omega
    have e2 : (min ((x / (c.size / 4) : Nat) : Int) (((c.cols / (c.size / 4) : Nat) : Int) - 1)) =
        ((min (x / (c.size / 4)) (c.cols / (c.size / 4) - 1) : Nat) : Int) := by omega
    have b1 : min (y / (c.size / 4)) (c.rows / (c.size / 4) - 1) < c.rows / (c.size / 4) := by omega
    have b2 : min (x / (c.size / 4)) (c.cols / (c.size / 4) - 1) < c.cols / (c.size / 4) := by omega
    rw [e1, e2, if_pos ⟨Int.natCast_nonneg _, Int.ofNat_lt.2 b1, Int.natCast_nonneg _, Int.ofNat_lt.2 b2⟩, Int.toNat_natCast, Int.toNat_natCast]
  · intro v hv hc
    unfold windowsOf at hv
    rw [Finset.mem_product, Finset.mem_range, Finset.mem_range] at hv
    obtain ⟨c1, c2, c3, c4⟩ := hc
    exact ⟨pixel_in_window h4 rfl hy hv.1 c1 c2, pixel_in_window h4 rfl hx hv.2 c3 c4⟩

example : 4 ≤ autoWin.size ∧ autoWin.size % 4 ≤ autoWin.size / 4 ∧ autoWin.size / 4 ≤ autoWin.rows ∧ autoWin.size / 4 ≤ autoWin.cols := by decide

/-- C145 does not hold of small images: with windows of 16 pixels, an image with three rows has no cells, and the threshold of a pixel is read at
the row -1. -/
theorem not_C145_flat (c : Cfg) (hs : c.size = 16) (hr : c.rows < 4) (s : Nat → Nat → Cell) (y x : Nat) : cellOf c s y x = none := by
  have hst : c.step = 4 := by unfold Cfg.step; omega
  have hn : c.nr = 0 := by
    unfold Cfg.nr
    rw [hst, if_neg (by omega)]
    omega
  unfold cellOf
  rw [if_neg (by omega), hn]
  dsimp only
  exact if_neg (by omega)

end Verif.Props
