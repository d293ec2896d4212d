import Verif.Model.Linear
import Verif.Proof.GridV1
import Verif.Proof.FloodMem

/-!
# The linear detector: packed words, neighbours, and the effect of `pre_process_image`
-/

namespace Verif.Linear

open Function (update)
open Verif.Flood (idx nb8 nb4 mem_px)
open Verif.Spec (pixels mem_pixels)

/-! ### Words -/

/-- A word: visited, directions toured, gray level. -/
def pack (vis : Bool) (d g : Nat) : Nat := (if vis then 0x8000 else 0) + d * 0x200 + g

/-- `nd` of the two modes. -/
def nds (eight : Bool) : Nat := if eight then 8 else 4

theorem dirMax_eq (D : Dim) : D.dirMax = nds D.eight * 0x200 := by
  unfold Dim.dirMax nds; cases D.eight <;> rfl

theorem nds_le (e : Bool) : nds e ≤ 8 := by cases e <;> decide

theorem pack_table : ∀ e vis : Bool, ∀ d ≤ nds e, ∀ g < 257,
    (pack vis d g &&& (if e then 0x1e00 else 0x0e00) = d * 0x200) ∧ (pack vis d g &&& 0x01ff = g) ∧
    (pack vis d g &&& 0x8000 = if vis then 0x8000 else 0) ∧ (pack vis d g ||| 0x8000 = pack true d g) ∧
    ((pack vis d g + 0x200) % 0x10000 = pack vis (d + 1) g) := by
  decide +kernel

theorem pack_dir {D : Dim} {vis : Bool} {d g : Nat} (hd : d ≤ nds D.eight) (hg : g < 257) :
    pack vis d g &&& D.dirMask = d * 0x200 := (pack_table _ _ _ hd _ hg).1
theorem pack_gray {e : Bool} {vis : Bool} {d g : Nat} (hd : d ≤ nds e) (hg : g < 257) : pack vis d g &&& 0x01ff = g :=
  (pack_table e _ _ hd _ hg).2.1
theorem pack_vis {e : Bool} {vis : Bool} {d g : Nat} (hd : d ≤ nds e) (hg : g < 257) :
    pack vis d g &&& 0x8000 = 0 ↔ vis = false := by
  rw [(pack_table e _ _ hd _ hg).2.2.1]; cases vis <;> decide
theorem pack_mark {e : Bool} {vis : Bool} {d g : Nat} (hd : d ≤ nds e) (hg : g < 257) :
    pack vis d g ||| 0x8000 = pack true d g := (pack_table e _ _ hd _ hg).2.2.2.1
theorem pack_bump {e : Bool} {vis : Bool} {d g : Nat} (hd : d ≤ nds e) (hg : g < 257) :
    (pack vis d g + 0x200) % 0x10000 = pack vis (d + 1) g := (pack_table e _ _ hd _ hg).2.2.2.2

theorem shift9 (d : Nat) : (d * 0x200) >>> 9 = d := by
  rw [Nat.shiftRight_eq_div_pow]; omega

/-! ### Cells -/

/-- The patch of the abstract flooding. -/
abbrev patchL (D : Dim) (val : Nat → Nat → Nat) : Flood.Patch := V1.patchCap 258 D.eight D.w D.h val 0

variable {D : Dim} {val : Nat → Nat → Nat}

theorem patchL_nd : (patchL D val).nd = nds D.eight := rfl

theorem mem_pxL {i : Nat} : i ∈ (patchL D val).px ↔ ∃ x y, x < D.w ∧ y < D.h ∧ i = idx D.w x y :=
  V1.mem_pxV1 (eight := D.eight) (img := val) (gm := 0)

theorem patchL_card : (patchL D val).px.card = D.area := Flood.gridPatch_card (img := val) (gm := 0)

theorem patchL_start : (patchL D val).start = D.start := by
  show 1 + (D.w + 2) = D.w + 2 + 1; omega

theorem patchL_gray {x y : Nat} (hx : x < D.w) : (patchL D val).gray (idx D.w x y) = val x y := by
  have := Flood.gridPatch_gray (w := D.w) (h := D.h) (img := val) (gm := 0) (y := y) hx
  rw [Nat.xor_zero] at this
  exact this

theorem idx_bounds {w h x y : Nat} (hx : x < w) (hy : y < h) :
    w + 2 + 1 ≤ idx w x y ∧ idx w x y + (w + 2) + 1 < (h + 2) * (w + 2) := by
  unfold idx
  have h1 : (y + 1) * (w + 2) = y * (w + 2) + (w + 2) := Nat.succ_mul _ _
  have h2 : (y + 2 + 1) * (w + 2) ≤ (h + 2) * (w + 2) := Nat.mul_le_mul_right _ (by omega)
  have h3 : (y + 2 + 1) * (w + 2) = y * (w + 2) + (w + 2) + (w + 2) + (w + 2) := by ring
  omega

theorem px_bounds {i : Nat} (hi : i ∈ (patchL D val).px) :
    D.w + 2 + 1 ≤ i ∧ i + (D.w + 2) + 1 < D.cells := by
  obtain ⟨x, y, hx, hy, rfl⟩ := mem_pxL.1 hi
  exact idx_bounds hx hy

theorem nbr_eq {i k : Nat} (hi : i ∈ (patchL D val).px) (hk : k < nds D.eight) :
    D.nbr i k = some ((patchL D val).nb i (k + 1)) := by
  obtain ⟨h1, h2⟩ := px_bounds hi
  have key : ∀ (d : Int) (q : Nat), D.dirs[k]? = some d → (i : Int) + d = q → q < D.cells → D.nbr i k = some q := by
    intro d q e1 e2 e3
    unfold Dim.nbr
    rw [e1]
    simp only
    rw [if_pos ⟨by omega, by omega⟩, e2]; simp
  cases he : D.eight with
  | true =>
    have hnb : (patchL D val).nb = nb8 D.w := by
      show (if D.eight then nb8 D.w else nb4 D.w) = _; rw [he]; rfl
    have hdirs : D.dirs = [1, 1 - (D.row : Int), -D.row, -1 - D.row, -1, -1 + D.row, D.row, 1 + D.row] := by
      unfold Dim.dirs; rw [he]; rfl
    have hrow : D.row = D.w + 2 := rfl
    rw [he] at hk
    simp only [nds, if_true] at hk
    rw [hnb]
    have hk' : k = 0 ∨ k = 1 ∨ k = 2 ∨ k = 3 ∨ k = 4 ∨ k = 5 ∨ k = 6 ∨ k = 7 := by omega
    rcases hk' with rfl | rfl | rfl | rfl | rfl | rfl | rfl | rfl <;>
      (refine key _ _ (by rw [hdirs]; rfl) ?_ ?_ <;> simp only [nb8, hrow] <;> omega)
  | false =>
    have hnb : (patchL D val).nb = nb4 D.w := by
      show (if D.eight then nb8 D.w else nb4 D.w) = _; rw [he]; rfl
    have hdirs : D.dirs = [1, -(D.row : Int), -1, D.row] := by
      unfold Dim.dirs; rw [he]; rfl
    have hrow : D.row = D.w + 2 := rfl
    rw [he] at hk
    simp only [nds] at hk
    rw [hnb]
    have hk' : k = 0 ∨ k = 1 ∨ k = 2 ∨ k = 3 := by simp at hk; omega
    rcases hk' with rfl | rfl | rfl | rfl <;>
      (refine key _ _ (by rw [hdirs]; rfl) ?_ ?_ <;> simp only [nb4, hrow] <;> omega)

theorem nb_lt {i k : Nat} (hi : i ∈ (patchL D val).px) (hk : k < nds D.eight) :
    (patchL D val).nb i (k + 1) < D.cells := by
  have h := nbr_eq hi hk
  unfold Dim.nbr at h
  split at h
  · simp at h
  · split at h
    · rename_i h2
      simp only [Option.some.injEq] at h
      omega
    · simp at h

/-! ### `pre_process_image` -/

theorem rows_get {w : Nat} {f : Nat → List Nat} (hf : ∀ y, (f y).length = w) :
    ∀ (h : Nat) {x y : Nat}, x < w → ((List.range h).flatMap f)[y * w + x]? = if y < h then (f y)[x]? else none
  | 0, x, y, hx => by simp
  | h + 1, x, y, hx => by
    have hl : ((List.range h).flatMap f).length = h * w := by
      rw [List.length_flatMap]; simp [hf]
    rw [List.range_succ, List.flatMap_append, List.getElem?_append, hl]
    by_cases hy : y < h
    · have : (y + 1) * w ≤ h * w := Nat.mul_le_mul_right _ hy
      rw [Nat.succ_mul] at this
      rw [if_pos (by omega), rows_get hf h hx, if_pos hy, if_pos (by omega)]
    · have h1 : h * w ≤ y * w := Nat.mul_le_mul_right _ (by omega)
      rw [if_neg (by omega)]
      simp only [List.flatMap_cons, List.flatMap_nil, List.append_nil]
      by_cases e : y = h
      · subst e; rw [if_pos (by omega)]; congr 1; omega
      · have h2 : (h + 1) * w ≤ y * w := Nat.mul_le_mul_right _ (by omega)
        rw [Nat.succ_mul] at h2
        rw [if_neg (by omega), List.getElem?_eq_none]
        rw [hf]; omega

/-- The word written at column `c` of row `r` of the padded image. -/
theorem wordList_get {c r : Nat} (hc : c < D.w + 2) (hr : r < D.h + 2) :
    (wordList D val)[r * (D.w + 2) + c]? = some (if 1 ≤ r ∧ r ≤ D.h ∧ 1 ≤ c ∧ c ≤ D.w then val (c - 1) (r - 1) else 0xffff) := by
  have hf : ∀ y, (0xffff :: (rowVals D val y ++ [0xffff])).length = D.w + 2 := by intro y; simp [rowVals]
  have hl : ((List.range D.h).flatMap fun y => 0xffff :: (rowVals D val y ++ [0xffff])).length = D.h * (D.w + 2) := by
    rw [List.length_flatMap]; simp [hf]
  unfold wordList
  rw [List.append_assoc, List.getElem?_append, List.length_replicate]
  by_cases h0 : r = 0
  · subst h0
    rw [if_pos (by omega), if_neg (by omega), List.getElem?_replicate, if_pos (by omega)]
  · have e1 : r * (D.w + 2) = (r - 1) * (D.w + 2) + (D.w + 2) := by
      obtain ⟨k, rfl⟩ : ∃ k, r = k + 1 := ⟨r - 1, by omega⟩
      rw [Nat.succ_mul]; rfl
    rw [if_neg (by omega), List.getElem?_append, hl]
    rw [show r * (D.w + 2) + c - (D.w + 2) = (r - 1) * (D.w + 2) + c by omega]
    by_cases h1 : r ≤ D.h
    · have : (r - 1 + 1) * (D.w + 2) ≤ D.h * (D.w + 2) := Nat.mul_le_mul_right _ (by omega)
      rw [Nat.succ_mul] at this
      rw [if_pos (by omega), rows_get hf D.h hc, if_pos (by omega)]
      by_cases hc0 : c = 0
      · subst hc0; rw [if_neg (by omega)]; rfl
      · obtain ⟨k, rfl⟩ : ∃ k, c = k + 1 := ⟨c - 1, by omega⟩
        rw [List.getElem?_cons_succ, List.getElem?_append]
        by_cases hk : k < D.w
        · rw [if_pos (by simp [rowVals]; omega), if_pos (by omega)]
          simp [rowVals, hk]
        · rw [if_neg (by simp [rowVals]; omega), if_neg (by omega)]
          have : k - (rowVals D val (r - 1)).length = 0 := by simp [rowVals]; omega
          rw [this]; rfl
    · have e2 : r - 1 = D.h := by omega
      rw [e2, if_neg (by omega), if_neg (by omega), List.getElem?_replicate]
      rw [if_pos (by omega)]

theorem wordList_px {x y : Nat} (hx : x < D.w) (hy : y < D.h) :
    (wordList D val)[idx D.w x y]? = some (val x y) := by
  have h1 := wordList_get (D := D) (val := val) (c := x + 1) (r := y + 1) (by omega) (by omega)
  rw [if_pos (by omega)] at h1
  exact h1

theorem wordList_out {i : Nat} (hi : i < D.cells) (ho : i ∉ (patchL D val).px) :
    (wordList D val)[i]? = some 0xffff := by
  have h1 := Nat.div_add_mod i (D.w + 2)
  have h2 := Nat.mod_lt i (show 0 < D.w + 2 by omega)
  have h3 : i / (D.w + 2) < D.h + 2 := Nat.div_lt_of_lt_mul (by rw [Nat.mul_comm]; exact hi)
  have h4 := wordList_get (D := D) (val := val) h2 h3
  rw [Nat.mul_comm, h1] at h4
  rw [h4, if_neg]
  rintro ⟨a1, a2, a3, a4⟩
  apply ho
  refine mem_pxL.2 ⟨i % (D.w + 2) - 1, i / (D.w + 2) - 1, by omega, by omega, ?_⟩
  unfold idx
  rw [show i / (D.w + 2) - 1 + 1 = i / (D.w + 2) by omega, show i % (D.w + 2) - 1 + 1 = i % (D.w + 2) by omega,
    Nat.mul_comm]
  exact h1.symm

theorem count_fold : ∀ (vs : List Nat) (f : Nat → Nat) (l : Nat),
    vs.foldl (fun f v => update f v (f v + 1)) f l = f l + vs.count l
  | [], f, l => by simp
  | v :: vs, f, l => by
    rw [List.foldl_cons, count_fold vs]
    by_cases e : l = v
    · subst e; simp; omega
    · rw [Function.update_of_ne e, List.count_cons_of_ne (Ne.symm e)]

/-- `level_size` is the histogram. -/
theorem levelSize_eq (l : Nat) : levelSize D val l = FloodMem.histOf (patchL D val) l := by
  unfold levelSize
  rw [count_fold, Nat.zero_add, List.count_flatMap]
  unfold FloodMem.histOf
  have h1 : (patchL D val).px.filter (fun i => (patchL D val).gray i = l)
      = ((Finset.range D.w ×ˢ Finset.range D.h).filter (fun p => val p.1 p.2 = l)).image (fun p => idx D.w p.1 p.2) := by
    ext i
    simp only [Finset.mem_filter, Finset.mem_image, Finset.mem_product, Finset.mem_range]
    constructor
    · rintro ⟨h1, h2⟩
      obtain ⟨x, y, hx, hy, rfl⟩ := mem_pxL.1 h1
      rw [patchL_gray hx] at h2
      exact ⟨(x, y), ⟨⟨hx, hy⟩, h2⟩, rfl⟩
    · rintro ⟨⟨x, y⟩, ⟨⟨hx, hy⟩, h2⟩, rfl⟩
      exact ⟨mem_pxL.2 ⟨x, y, hx, hy, rfl⟩, by rw [patchL_gray hx]; exact h2⟩
  rw [h1, Finset.card_image_of_injOn]
  · have h2 : ∀ n, (((List.range n).map (fun y => (rowVals D val y).count l)).sum)
        = ((Finset.range D.w ×ˢ Finset.range n).filter (fun p => val p.1 p.2 = l)).card := by
      intro n
      induction n with
      | zero => simp
      | succ n ih =>
        rw [List.range_succ, List.map_append, List.sum_append, ih]
        have h3 : (Finset.range D.w ×ˢ Finset.range (n + 1)).filter (fun p => val p.1 p.2 = l)
            = (Finset.range D.w ×ˢ Finset.range n).filter (fun p => val p.1 p.2 = l)
              ∪ ((Finset.range D.w).filter (fun x => val x n = l)).image (fun x => (x, n)) := by
          ext ⟨x, y⟩
          simp only [Finset.mem_filter, Finset.mem_product, Finset.mem_range, Finset.mem_union, Finset.mem_image,
            Prod.mk.injEq]
          constructor
          · rintro ⟨⟨hx, hy⟩, hv⟩
            by_cases e : y = n
            · subst e; exact .inr ⟨x, ⟨hx, hv⟩, rfl, rfl⟩
            · exact .inl ⟨⟨hx, by omega⟩, hv⟩
          · rintro (⟨⟨hx, hy⟩, hv⟩ | ⟨a, ⟨hx, hv⟩, rfl, rfl⟩)
            · exact ⟨⟨hx, by omega⟩, hv⟩
            · exact ⟨⟨hx, by omega⟩, hv⟩
        rw [h3, Finset.card_union_of_disjoint, Finset.card_image_of_injOn]
        · congr 1
          simp only [List.map_cons, List.map_nil, List.sum_cons, List.sum_nil, Nat.add_zero, rowVals]
          rw [List.count, List.countP_map, List.countP_eq_length_filter]
          have h4 : (Finset.range D.w).filter (fun x => val x n = l)
              = ((List.range D.w).filter ((fun b => b == l) ∘ fun x => val x n)).toFinset := by
            ext x; simp
          rw [h4, List.toFinset_card_of_nodup ((List.nodup_range).filter _)]
        · intro a _ b _ e; simpa using e
        · rw [Finset.disjoint_left]
          rintro ⟨x, y⟩ h4 h5
          simp only [Finset.mem_filter, Finset.mem_product, Finset.mem_range, Finset.mem_image, Prod.mk.injEq] at h4 h5
          obtain ⟨_, _, _, rfl⟩ := h5
          omega
    rw [← h2]; rfl
  · rintro ⟨x, y⟩ h2 ⟨x', y'⟩ h3 e
    simp only [Finset.coe_filter, Finset.mem_product, Finset.mem_range, Set.mem_setOf_eq] at h2 h3
    obtain ⟨e1, e2⟩ := Flood.idx_inj h2.1.1.le h3.1.1.le e
    exact Prod.ext e1 e2

theorem heapSteps (lv : Nat → Nat) (b : Buf) (h0 : b.heap (b.top 0) = none) : ∀ n,
    let b' := (List.range n).foldl (heapStep lv) b
    (∀ l ≤ n, b'.top l = b.top 0 + FloodMem.offset lv l) ∧
    (∀ l ≤ n, b'.heap (b.top 0 + FloodMem.offset lv l) = none) ∧
    b'.words = b.words ∧ b'.regs = b.regs ∧ b'.pts = b.pts
  | 0 => by
    refine ⟨fun l hl => ?_, fun l hl => ?_, rfl, rfl, rfl⟩
    · obtain rfl : l = 0 := by omega
      simp [FloodMem.offset]
    · obtain rfl : l = 0 := by omega
      simpa [FloodMem.offset] using h0
  | n + 1 => by
    obtain ⟨h1, h2, h3, h4, h5⟩ := heapSteps lv b h0 n
    simp only [List.range_succ, List.foldl_append, List.foldl_cons, List.foldl_nil]
    generalize (List.range n).foldl (heapStep lv) b = b' at *
    have ha : b'.top n + lv n + 1 = b.top 0 + FloodMem.offset lv (n + 1) := by
      rw [h1 n (le_refl _)]; simp only [FloodMem.offset]; omega
    refine ⟨fun l hl => ?_, fun l hl => ?_, h3, h4, h5⟩
    · simp only [heapStep]
      by_cases e : l = n + 1
      · subst e; rw [Function.update_self, ha]
      · rw [Function.update_of_ne e]; exact h1 l (by omega)
    · simp only [heapStep, ha]
      by_cases e : l = n + 1
      · subst e; rw [Function.update_self]
      · have := FloodMem.offset_lt (hist := lv) (show l < n + 1 by omega)
        rw [Function.update_of_ne (by omega)]; exact h2 l (by omega)

/-- What `pre_process_image` leaves behind, whatever the buffers held before. -/
theorem preProcess_spec (b : Buf) (h0 : b.top 0 = 0) :
    let b' := preProcess D val b
    (∀ x y, x < D.w → y < D.h → b'.words (idx D.w x y) = val x y) ∧
    (∀ i < D.cells, i ∉ (patchL D val).px → b'.words i = 0xffff) ∧
    (∀ l ≤ 256, b'.top l = FloodMem.offset (FloodMem.histOf (patchL D val)) l) ∧
    (∀ l ≤ 256, b'.heap (FloodMem.offset (FloodMem.histOf (patchL D val)) l) = none) ∧
    b'.regs = b.regs ∧ b'.pts = b.pts := by
  have hlv : levelSize D val = FloodMem.histOf (patchL D val) := funext levelSize_eq
  have h := heapSteps (levelSize D val)
    { b with words := fun i => ((wordList D val)[i]?).getD (b.words i), heap := update b.heap (b.top 0) none } (by simp) 256
  simp only [hlv, h0, Nat.zero_add] at h
  unfold preProcess
  simp only [hlv, h0]
  obtain ⟨h1, h2, h3, h4, h5⟩ := h
  refine ⟨?_, ?_, h1, h2, h4, h5⟩
  · intro x y hx hy
    rw [h3]
    simp only [wordList_px hx hy, Option.getD_some]
  · intro i hi ho
    rw [h3]
    simp only [wordList_out hi ho, Option.getD_some]

end Verif.Linear
