import Verif.Model.Partition
import Verif.Spec.Image
import Mathlib.Tactic.Ring
import Mathlib.Data.List.Nodup

/-!
# The division into patches and the list of joins
-/

namespace Verif.Partition

open Verif.Spec (pixels mem_pixels Adj4)

/-! ### One dimension -/

theorem starts_eq (n total i : Nat) : starts n total i = i * (total / n) := by
  induction i with
  | zero => simp [starts]
  | succ i ih => rw [starts, ih, Nat.succ_mul]

theorem starts_le {n total i : Nat} (hi : i < n) : starts n total i ≤ total := by
  rw [starts_eq]
  calc i * (total / n) ≤ n * (total / n) := Nat.mul_le_mul_right _ hi.le
    _ ≤ total := Nat.mul_div_le _ _

theorem starts_mono {n total i j : Nat} (h : i ≤ j) : starts n total i ≤ starts n total j := by
  rw [starts_eq, starts_eq]; exact Nat.mul_le_mul_right _ h

/-- a part ends where the next one starts -/
theorem lengths_next {n total i : Nat} (hi : i + 1 < n) :
    starts n total i + lengths n total i = starts n total (i + 1) := by
  rw [lengths, if_pos (by omega), starts]

/-- the last part ends with the total (so line 87 does not underflow) -/
theorem lengths_sum {n total : Nat} (hn : 1 ≤ n) :
    starts n total (n - 1) ≤ total ∧ starts n total (n - 1) + lengths n total (n - 1) = total := by
  have := starts_le (total := total) (show n - 1 < n by omega)
  rw [lengths, if_neg (by omega)]
  omega

theorem ends_le {n total i : Nat} (hi : i < n) : starts n total i + lengths n total i ≤ total := by
  by_cases h : i + 1 < n
  · rw [lengths_next h]; exact starts_le h
  · obtain rfl : i = n - 1 := by omega
    exact (lengths_sum (by omega)).2.le

theorem lengths_pos {n total i : Nat} (hn : 1 ≤ n) (ht : n ≤ total) : 0 < lengths n total i := by
  have hq : 0 < total / n := Nat.div_pos ht hn
  unfold lengths; split
  · exact hq
  · have h1 := starts_eq n total (n - 1)
    have h2 := Nat.mul_div_le total n
    have h3 := Nat.succ_mul (n - 1) (total / n)
    rw [show Nat.succ (n - 1) = n by omega] at h3
    omega

theorem part_unique {n total x i j : Nat} (hi : i < n) (hj : j < n)
    (h1 : starts n total i ≤ x) (h2 : x < starts n total i + lengths n total i)
    (h3 : starts n total j ≤ x) (h4 : x < starts n total j + lengths n total j) : i = j := by
  by_contra hne
  rcases Nat.lt_or_ge i j with h | h
  · have := lengths_next (total := total) (show i + 1 < n by omega)
    have := starts_mono (n := n) (total := total) (show i + 1 ≤ j by omega)
    omega
  · have := lengths_next (total := total) (show j + 1 < n by omega)
    have := starts_mono (n := n) (total := total) (show j + 1 ≤ i by omega)
    omega

theorem partOf_spec {n total x : Nat} (hn : 1 ≤ n) (hx : x < total) :
    partOf n total x < n ∧ starts n total (partOf n total x) ≤ x ∧
      x < starts n total (partOf n total x) + lengths n total (partOf n total x) := by
  unfold partOf
  split
  · rename_i h
    have hq : total / n = 0 := Nat.div_eq_of_lt h
    have := lengths_sum (total := total) hn
    refine ⟨by omega, ?_, by omega⟩
    rw [starts_eq, hq]; omega
  · rename_i h
    have hq : 0 < total / n := Nat.div_pos (by omega) hn
    generalize hi : min (x / (total / n)) (n - 1) = i
    have h1 : x / (total / n) * (total / n) ≤ x := Nat.div_mul_le_self _ _
    have h2 : x < (x / (total / n) + 1) * (total / n) := Nat.lt_mul_of_div_lt (by omega) hq
    have hle : i * (total / n) ≤ x / (total / n) * (total / n) := Nat.mul_le_mul_right _ (by omega)
    refine ⟨by omega, by rw [starts_eq]; omega, ?_⟩
    by_cases hlast : i + 1 < n
    · rw [lengths_next hlast, starts_eq]
      have : i = x / (total / n) := by omega
      rw [this]; exact h2
    · obtain rfl : i = n - 1 := by omega
      rw [(lengths_sum hn).2]; exact hx

theorem partOf_eq {n total x i : Nat} (hn : 1 ≤ n) (hx : x < total) (hi : i < n) :
    partOf n total x = i ↔ starts n total i ≤ x ∧ x < starts n total i + lengths n total i := by
  obtain ⟨h1, h2, h3⟩ := partOf_spec hn hx
  constructor
  · rintro rfl; exact ⟨h2, h3⟩
  · rintro ⟨h4, h5⟩; exact part_unique h1 hi h2 h3 h4 h5

/-! ### Two dimensions -/

/-- Pixel `p` lies in the rectangle. -/
def PInfo.Has (q : PInfo) (p : Nat × Nat) : Prop :=
  q.left ≤ p.1 ∧ p.1 < q.left + q.width ∧ q.top ≤ p.2 ∧ p.2 < q.top + q.height

variable {hp vp w h : Nat}

theorem patch_div {hp a b : Nat} (ha : a < hp) : (b * hp + a) % hp = a ∧ (b * hp + a) / hp = b := by
  constructor
  · rw [Nat.add_comm, Nat.add_mul_mod_self_right, Nat.mod_eq_of_lt ha]
  · rw [Nat.add_comm, Nat.add_mul_div_right _ _ (by omega), Nat.div_eq_of_lt ha, Nat.zero_add]

theorem patchOf_eq (hhp : 1 ≤ hp) (hvp : 1 ≤ vp) {p : Nat × Nat} (hpx : p ∈ pixels w h) {k : Nat}
    (hk : k < hp * vp) : patchOf hp vp w h p = k ↔ (pinfo hp vp w h k).Has p := by
  rw [mem_pixels] at hpx
  have hkm : k % hp < hp := Nat.mod_lt _ (by omega)
  have hkd : k / hp < vp := Nat.div_lt_of_lt_mul hk
  have e1 := partOf_eq hhp hpx.1 hkm
  have e2 := partOf_eq hvp hpx.2 hkd
  have e3 := patch_div (b := partOf vp h p.2) (partOf_spec hhp hpx.1).1
  have e4 := Nat.div_add_mod k hp
  unfold patchOf PInfo.Has pinfo
  simp only
  constructor
  · intro e
    rw [e] at e3
    obtain ⟨a1, a2⟩ := e1.1 e3.1.symm
    obtain ⟨a3, a4⟩ := e2.1 e3.2.symm
    exact ⟨a1, a2, a3, a4⟩
  · rintro ⟨a1, a2, a3, a4⟩
    rw [e1.2 ⟨a1, a2⟩, e2.2 ⟨a3, a4⟩, Nat.mul_comm]; exact e4

theorem patchOf_lt (hhp : 1 ≤ hp) (hvp : 1 ≤ vp) {p : Nat × Nat} (hpx : p ∈ pixels w h) :
    patchOf hp vp w h p < hp * vp := by
  rw [mem_pixels] at hpx
  have h1 := (partOf_spec hhp hpx.1).1
  have h2 := (partOf_spec hvp hpx.2).1
  unfold patchOf
  have : (partOf vp h p.2 + 1) * hp ≤ vp * hp := Nat.mul_le_mul_right _ h2
  rw [Nat.succ_mul] at this
  rw [Nat.mul_comm hp vp]; omega

theorem pinfo_inside (hhp : 1 ≤ hp) {k : Nat} (hk : k < hp * vp) :
    (pinfo hp vp w h k).left + (pinfo hp vp w h k).width ≤ w ∧
    (pinfo hp vp w h k).top + (pinfo hp vp w h k).height ≤ h :=
  ⟨ends_le (Nat.mod_lt _ (by omega)), ends_le (Nat.div_lt_of_lt_mul hk)⟩

/-! ### The schedule of joins -/

/-- The pixel of the image a cell of a padded patch array stands for. -/
def cellPixel (pi : Nat → PInfo) (c : Cell) : Nat × Nat :=
  ((pi c.1).left + (c.2 % ((pi c.1).width + 2) - 1), (pi c.1).top + (c.2 / ((pi c.1).width + 2) - 1))

/-- The cell is not padding. -/
def CellOk (pi : Nat → PInfo) (c : Cell) : Prop :=
  1 ≤ c.2 % ((pi c.1).width + 2) ∧ c.2 % ((pi c.1).width + 2) ≤ (pi c.1).width ∧
  1 ≤ c.2 / ((pi c.1).width + 2) ∧ c.2 / ((pi c.1).width + 2) ≤ (pi c.1).height

/-- The (direction, patch) entries of the calls. -/
def entries (calls : List StepCall) : List (Bool × Nat) :=
  calls.flatMap fun c => c.indexes.map fun a => (c.leftRight, a)

/-- A list of calls visits every vertical and every horizontal border between two patches once. -/
structure Complete (hp vp : Nat) (calls : List StepCall) : Prop where
  step : ∀ c ∈ calls, c.step = if c.leftRight then 1 else hp
  nodup : (entries calls).Nodup
  lt : ∀ e ∈ entries calls, e.2 < hp * vp
  lr : ∀ a < hp * vp, ((true, a) ∈ entries calls ↔ a % hp + 1 < hp)
  ud : ∀ a < hp * vp, ((false, a) ∈ entries calls ↔ a / hp + 1 < vp)

theorem complete4 : Complete 2 2 calls4 := ⟨by decide, by decide, by decide, by decide, by decide⟩

theorem complete32 : Complete 8 4 calls32 := ⟨by decide, by decide, by decide, by decide, by decide⟩

theorem complete1 (n : Nat) (h : n ≠ 4 ∧ n ≠ 32) : Complete 1 1 (callsV2 n) := by
  have : callsV2 n = [] := by
    unfold callsV2; split <;> [omega; omega; rfl]
  rw [this]
  exact ⟨by decide, by decide, by decide, by decide, by decide⟩

theorem layout_cases {n : Nat} (hl : layoutV2 n = some (hp, vp)) :
    (n = 1 ∧ hp = 1 ∧ vp = 1) ∨ (n = 4 ∧ hp = 2 ∧ vp = 2) ∨ (n = 32 ∧ hp = 8 ∧ vp = 4) := by
  unfold layoutV2 at hl
  split at hl <;> simp at hl <;> omega

theorem completeV2 {n : Nat} (hl : layoutV2 n = some (hp, vp)) :
    Complete hp vp (callsV2 n) ∧ n = hp * vp ∧ 1 ≤ hp ∧ 1 ≤ vp := by
  rcases layout_cases hl with ⟨rfl, rfl, rfl⟩ | ⟨rfl, rfl, rfl⟩ | ⟨rfl, rfl, rfl⟩
  · exact ⟨complete1 1 (by omega), by omega, by omega, by omega⟩
  · exact ⟨complete4, by omega, by omega, by omega⟩
  · exact ⟨complete32, by omega, by omega, by omega⟩

theorem pinfos_eq {n : Nat} (hl : layoutV2 n = some (hp, vp)) :
    pinfos hp vp w h = (List.range n).map (pinfo hp vp w h) := by
  rcases layout_cases hl with ⟨rfl, rfl, rfl⟩ | ⟨rfl, rfl, rfl⟩ | ⟨rfl, rfl, rfl⟩ <;> rfl

/-- The pair of pixels of join number `i` on the right (`true`) or lower (`false`) border of patch
`a`. -/
def borderPair (pi : Nat → PInfo) (e : Bool × Nat) (i : Nat) : (Nat × Nat) × (Nat × Nat) :=
  if e.1 then
    (((pi e.2).left + (pi e.2).width - 1, (pi e.2).top + i), ((pi e.2).left + (pi e.2).width, (pi e.2).top + i))
  else
    (((pi e.2).left + i, (pi e.2).top + (pi e.2).height - 1), ((pi e.2).left + i, (pi e.2).top + (pi e.2).height))

/-- Number of joins on that border. -/
def borderLen (pi : Nat → PInfo) (e : Bool × Nat) : Nat := if e.1 then (pi e.2).height else (pi e.2).width

/-- All joins in terms of pixels of the image. -/
def joinPixels (pi : Nat → PInfo) (calls : List StepCall) : List ((Nat × Nat) × (Nat × Nat)) :=
  (allCells pi calls).map fun e => (cellPixel pi e.1, cellPixel pi e.2)

theorem cell_div {wd i c : Nat} (hc : c < wd) : (i * wd + c) % wd = c ∧ (i * wd + c) / wd = i :=
  patch_div hc

/-- The patch to the right. -/
theorem right_patch (hhp : 1 ≤ hp) {a : Nat} (ha : a < hp * vp) (hr : a % hp + 1 < hp) :
    a + 1 < hp * vp ∧ (a + 1) % hp = a % hp + 1 ∧ (a + 1) / hp = a / hp := by
  have h1 := Nat.div_add_mod a hp
  have h2 := patch_div (hp := hp) (a := a % hp + 1) (b := a / hp) hr
  have h3 : a / hp * hp + (a % hp + 1) = a + 1 := by rw [Nat.mul_comm]; omega
  rw [h3] at h2
  refine ⟨?_, h2⟩
  have h4 : a / hp < vp := Nat.div_lt_of_lt_mul ha
  have h5 : (a / hp + 1) * hp ≤ vp * hp := Nat.mul_le_mul_right _ h4
  rw [Nat.succ_mul] at h5
  rw [Nat.mul_comm hp vp]; omega

/-- The patch below. -/
theorem lower_patch (hhp : 1 ≤ hp) {a : Nat} (hr : a / hp + 1 < vp) :
    a + hp < hp * vp ∧ (a + hp) % hp = a % hp ∧ (a + hp) / hp = a / hp + 1 := by
  refine ⟨?_, Nat.add_mod_right _ _, Nat.add_div_right _ (by omega)⟩
  have h1 := Nat.div_add_mod a hp
  have h2 := Nat.mod_lt a (show 0 < hp by omega)
  have h5 : (a / hp + 1 + 1) * hp ≤ vp * hp := Nat.mul_le_mul_right _ hr
  rw [Nat.succ_mul, Nat.succ_mul, Nat.mul_comm] at h5
  rw [Nat.mul_comm hp vp]; omega

section
variable {calls : List StepCall}

/-- One border in terms of cells. -/
def borderCell (pi : Nat → PInfo) (hp : Nat) (e : Bool × Nat) (i : Nat) : Cell × Cell :=
  if e.1 then
    ((e.2, (pi e.2).width + ((pi e.2).width + 2) + i * ((pi e.2).width + 2)),
     (e.2 + 1, 1 + ((pi (e.2 + 1)).width + 2) + i * ((pi (e.2 + 1)).width + 2)))
  else
    ((e.2, (pi e.2).height * ((pi e.2).width + 2) + 1 + i),
     (e.2 + hp, ((pi (e.2 + hp)).width + 2) + 1 + i))

theorem allCells_eq (hC : Complete hp vp calls) (pi : Nat → PInfo) :
    allCells pi calls = (entries calls).flatMap fun e => (List.range (borderLen pi e)).map (borderCell pi hp e) := by
  unfold allCells entries
  rw [List.flatMap_assoc]
  refine List.flatMap_congr ?_
  intro c hc
  rw [List.flatMap_map]
  unfold stepCells
  refine List.flatMap_congr ?_
  intro a _
  rw [hC.step c hc]
  cases c.leftRight <;> rfl

/-- What one join is, and which cells it reads. -/
theorem border_spec (hC : Complete hp vp calls) (hhp : 1 ≤ hp) (hvp : 1 ≤ vp) (hw : hp ≤ w) (hh : vp ≤ h)
    {e : Bool × Nat} (he : e ∈ entries calls) {i : Nat} (hi : i < borderLen (pinfo hp vp w h) e) :
    CellOk (pinfo hp vp w h) (borderCell (pinfo hp vp w h) hp e i).1 ∧
    CellOk (pinfo hp vp w h) (borderCell (pinfo hp vp w h) hp e i).2 ∧
    (borderCell (pinfo hp vp w h) hp e i).1.1 < hp * vp ∧
    (borderCell (pinfo hp vp w h) hp e i).2.1 < hp * vp ∧
    cellPixel (pinfo hp vp w h) (borderCell (pinfo hp vp w h) hp e i).1 = (borderPair (pinfo hp vp w h) e i).1 ∧
    cellPixel (pinfo hp vp w h) (borderCell (pinfo hp vp w h) hp e i).2 = (borderPair (pinfo hp vp w h) e i).2 := by
  obtain ⟨d, a⟩ := e
  have ha := hC.lt _ he
  simp only at ha
  have hwp : ∀ k, 0 < (pinfo hp vp w h k).width := fun k => lengths_pos hhp hw
  have hhp' : ∀ k, 0 < (pinfo hp vp w h k).height := fun k => lengths_pos hvp hh
  cases d with
  | true =>
    have hr := (hC.lr a ha).1 he
    obtain ⟨b1, b2, b3⟩ := right_patch hhp ha hr
    have hl : (pinfo hp vp w h (a + 1)).left = (pinfo hp vp w h a).left + (pinfo hp vp w h a).width := by
      simp only [pinfo, b2]; exact (lengths_next hr).symm
    have ht : (pinfo hp vp w h (a + 1)).top = (pinfo hp vp w h a).top := by simp only [pinfo, b3]
    have hg : (pinfo hp vp w h (a + 1)).height = (pinfo hp vp w h a).height := by simp only [pinfo, b3]
    simp only [borderLen, if_true] at hi
    simp only [borderCell, borderPair, if_true, CellOk, cellPixel]
    generalize pinfo hp vp w h = pi at *
    have e1 : (pi a).width + ((pi a).width + 2) + i * ((pi a).width + 2)
        = (i + 1) * ((pi a).width + 2) + (pi a).width := by ring
    have e2 : 1 + ((pi (a + 1)).width + 2) + i * ((pi (a + 1)).width + 2)
        = (i + 1) * ((pi (a + 1)).width + 2) + 1 := by ring
    obtain ⟨c1, c2⟩ := cell_div (wd := (pi a).width + 2) (i := i + 1) (c := (pi a).width) (by omega)
    obtain ⟨c3, c4⟩ := cell_div (wd := (pi (a + 1)).width + 2) (i := i + 1) (c := 1) (by omega)
    rw [e1, e2, c1, c2, c3, c4]
    have := hwp a; have := hwp (a + 1)
    refine ⟨by omega, by omega, ha, b1, ?_, ?_⟩
    · ext <;> simp only <;> omega
    · ext <;> simp only <;> omega
  | false =>
    have hr := (hC.ud a ha).1 he
    obtain ⟨b1, b2, b3⟩ := lower_patch hhp hr
    have hl : (pinfo hp vp w h (a + hp)).left = (pinfo hp vp w h a).left := by simp only [pinfo, b2]
    have hwd : (pinfo hp vp w h (a + hp)).width = (pinfo hp vp w h a).width := by simp only [pinfo, b2]
    have ht : (pinfo hp vp w h (a + hp)).top = (pinfo hp vp w h a).top + (pinfo hp vp w h a).height := by
      simp only [pinfo, b3]; exact (lengths_next hr).symm
    simp only [borderLen, Bool.false_eq_true, if_false] at hi
    simp only [borderCell, borderPair, Bool.false_eq_true, if_false, CellOk, cellPixel]
    generalize pinfo hp vp w h = pi at *
    have e1 : (pi a).height * ((pi a).width + 2) + 1 + i = (pi a).height * ((pi a).width + 2) + (1 + i) := by ring
    have e2 : (pi (a + hp)).width + 2 + 1 + i = 1 * ((pi (a + hp)).width + 2) + (1 + i) := by ring
    obtain ⟨c1, c2⟩ := cell_div (wd := (pi a).width + 2) (i := (pi a).height) (c := 1 + i) (by omega)
    obtain ⟨c3, c4⟩ := cell_div (wd := (pi (a + hp)).width + 2) (i := 1) (c := 1 + i) (by omega)
    rw [e1, e2, c1, c2, c3, c4]
    have := hhp' a; have := hhp' (a + hp)
    refine ⟨by omega, by omega, ha, b1, ?_, ?_⟩
    · ext <;> simp only <;> omega
    · ext <;> simp only <;> omega

theorem joinPixels_eq (hC : Complete hp vp calls) (hhp : 1 ≤ hp) (hvp : 1 ≤ vp) (hw : hp ≤ w) (hh : vp ≤ h) :
    joinPixels (pinfo hp vp w h) calls = (entries calls).flatMap fun e =>
      (List.range (borderLen (pinfo hp vp w h) e)).map (borderPair (pinfo hp vp w h) e) := by
  unfold joinPixels
  rw [allCells_eq hC, List.map_flatMap]
  refine List.flatMap_congr ?_
  intro e he
  rw [List.map_map]
  refine List.map_congr_left ?_
  intro i hi
  obtain ⟨_, _, _, _, h5, h6⟩ := border_spec hC hhp hvp hw hh he (List.mem_range.1 hi)
  exact Prod.ext h5 h6

theorem mem_joinPixels (hC : Complete hp vp calls) (hhp : 1 ≤ hp) (hvp : 1 ≤ vp) (hw : hp ≤ w) (hh : vp ≤ h)
    (p q : Nat × Nat) : (p, q) ∈ joinPixels (pinfo hp vp w h) calls ↔
      p ∈ pixels w h ∧ q ∈ pixels w h ∧ patchOf hp vp w h p ≠ patchOf hp vp w h q ∧
        ((q.1 = p.1 + 1 ∧ q.2 = p.2) ∨ (q.1 = p.1 ∧ q.2 = p.2 + 1)) := by
  rw [joinPixels_eq hC hhp hvp hw hh, List.mem_flatMap]
  have hwp : ∀ k, 0 < (pinfo hp vp w h k).width := fun k => lengths_pos hhp hw
  have hhp' : ∀ k, 0 < (pinfo hp vp w h k).height := fun k => lengths_pos hvp hh
  constructor
  · rintro ⟨⟨d, a⟩, he, hm⟩
    obtain ⟨i, hi, hpq⟩ := List.mem_map.1 hm
    rw [List.mem_range] at hi
    have ha := hC.lt _ he
    simp only at ha
    have hin := pinfo_inside (w := w) (h := h) hhp ha
    cases d with
    | true =>
      have hr := (hC.lr a ha).1 he
      obtain ⟨b1, b2, b3⟩ := right_patch hhp ha hr
      have hin' := pinfo_inside (w := w) (h := h) hhp b1
      have hl : (pinfo hp vp w h (a + 1)).left = (pinfo hp vp w h a).left + (pinfo hp vp w h a).width := by
        simp only [pinfo, b2]; exact (lengths_next hr).symm
      have ht : (pinfo hp vp w h (a + 1)).top = (pinfo hp vp w h a).top := by simp only [pinfo, b3]
      have hg : (pinfo hp vp w h (a + 1)).height = (pinfo hp vp w h a).height := by simp only [pinfo, b3]
      simp only [borderLen, if_true] at hi
      simp only [borderPair, if_true, Prod.mk.injEq] at hpq
      obtain ⟨rfl, rfl⟩ := hpq
      have := hwp a; have := hwp (a + 1)
      have m1 : ((pinfo hp vp w h a).left + (pinfo hp vp w h a).width - 1, (pinfo hp vp w h a).top + i) ∈ pixels w h :=
        mem_pixels.2 ⟨by simp only; omega, by simp only; omega⟩
      have m2 : ((pinfo hp vp w h a).left + (pinfo hp vp w h a).width, (pinfo hp vp w h a).top + i) ∈ pixels w h :=
        mem_pixels.2 ⟨by simp only; omega, by simp only; omega⟩
      refine ⟨m1, m2, ?_, .inl ⟨by simp only; omega, rfl⟩⟩
      rw [(patchOf_eq hhp hvp m1 ha).2 (by unfold PInfo.Has; simp only; omega),
        (patchOf_eq hhp hvp m2 b1).2 (by unfold PInfo.Has; simp only; omega)]
      omega
    | false =>
      have hr := (hC.ud a ha).1 he
      obtain ⟨b1, b2, b3⟩ := lower_patch hhp hr
      have hin' := pinfo_inside (w := w) (h := h) hhp b1
      have hl : (pinfo hp vp w h (a + hp)).left = (pinfo hp vp w h a).left := by simp only [pinfo, b2]
      have hwd : (pinfo hp vp w h (a + hp)).width = (pinfo hp vp w h a).width := by simp only [pinfo, b2]
      have ht : (pinfo hp vp w h (a + hp)).top = (pinfo hp vp w h a).top + (pinfo hp vp w h a).height := by
        simp only [pinfo, b3]; exact (lengths_next hr).symm
      simp only [borderLen, Bool.false_eq_true, if_false] at hi
      simp only [borderPair, Bool.false_eq_true, if_false, Prod.mk.injEq] at hpq
      obtain ⟨rfl, rfl⟩ := hpq
      have := hhp' a; have := hhp' (a + hp)
      have m1 : ((pinfo hp vp w h a).left + i, (pinfo hp vp w h a).top + (pinfo hp vp w h a).height - 1) ∈ pixels w h :=
        mem_pixels.2 ⟨by simp only; omega, by simp only; omega⟩
      have m2 : ((pinfo hp vp w h a).left + i, (pinfo hp vp w h a).top + (pinfo hp vp w h a).height) ∈ pixels w h :=
        mem_pixels.2 ⟨by simp only; omega, by simp only; omega⟩
      refine ⟨m1, m2, ?_, .inr ⟨rfl, by simp only; omega⟩⟩
      rw [(patchOf_eq hhp hvp m1 ha).2 (by unfold PInfo.Has; simp only; omega),
        (patchOf_eq hhp hvp m2 b1).2 (by unfold PInfo.Has; simp only; omega)]
      omega
  · rintro ⟨hpp, hqp, hne, hadj⟩
    have hlt := patchOf_lt hhp hvp hpp
    have hhas := (patchOf_eq hhp hvp hpp hlt).1 rfl
    have hnot : ¬ (pinfo hp vp w h (patchOf hp vp w h p)).Has q := fun hh' =>
      hne ((patchOf_eq hhp hvp hqp hlt).2 hh').symm
    generalize patchOf hp vp w h p = a at *
    have hkm : a % hp < hp := Nat.mod_lt _ (by omega)
    have hkd : a / hp < vp := Nat.div_lt_of_lt_mul hlt
    have hpp' := mem_pixels.1 hpp
    have hqp' := mem_pixels.1 hqp
    unfold PInfo.Has at hhas hnot
    rcases hadj with ⟨e1, e2⟩ | ⟨e1, e2⟩
    · have hend : q.1 = (pinfo hp vp w h a).left + (pinfo hp vp w h a).width := by omega
      have hr : a % hp + 1 < hp := by
        by_contra hc
        have e : a % hp = hp - 1 := by omega
        have := (lengths_sum (total := w) hhp).2
        simp only [pinfo, e] at hend; omega
      refine ⟨(true, a), (hC.lr a hlt).2 hr, List.mem_map.2 ⟨p.2 - (pinfo hp vp w h a).top, ?_, ?_⟩⟩
      · rw [List.mem_range]; simp only [borderLen, if_true]; omega
      · simp only [borderPair, if_true]
        ext <;> simp only <;> omega
    · have hend : q.2 = (pinfo hp vp w h a).top + (pinfo hp vp w h a).height := by omega
      have hr : a / hp + 1 < vp := by
        by_contra hc
        have e : a / hp = vp - 1 := by omega
        have := (lengths_sum (total := h) hvp).2
        simp only [pinfo, e] at hend; omega
      refine ⟨(false, a), (hC.ud a hlt).2 hr, List.mem_map.2 ⟨p.1 - (pinfo hp vp w h a).left, ?_, ?_⟩⟩
      · rw [List.mem_range]; simp only [borderLen, Bool.false_eq_true, if_false]; omega
      · simp only [borderPair, Bool.false_eq_true, if_false]
        ext <;> simp only <;> omega

theorem nodup_joinPixels (hC : Complete hp vp calls) (hhp : 1 ≤ hp) (hvp : 1 ≤ vp) (hw : hp ≤ w) (hh : vp ≤ h) :
    (joinPixels (pinfo hp vp w h) calls).Nodup := by
  have hwp : ∀ k, 0 < (pinfo hp vp w h k).width := fun k => lengths_pos hhp hw
  have hhp' : ∀ k, 0 < (pinfo hp vp w h k).height := fun k => lengths_pos hvp hh
  have hmem := mem_joinPixels (w := w) (h := h) hC hhp hvp hw hh
  rw [joinPixels_eq hC hhp hvp hw hh] at hmem ⊢
  -- the patch and the direction can be read off a pair
  have hrec : ∀ e ∈ entries calls, ∀ x ∈ (List.range (borderLen (pinfo hp vp w h) e)).map
      (borderPair (pinfo hp vp w h) e), e.2 = patchOf hp vp w h x.1 ∧ (e.1 = true ↔ x.1.2 = x.2.2) := by
    intro e he x hx
    have hm := (hmem x.1 x.2).1 (List.mem_flatMap.2 ⟨e, he, hx⟩)
    obtain ⟨i, hi, rfl⟩ := List.mem_map.1 hx
    rw [List.mem_range] at hi
    obtain ⟨d, a⟩ := e
    have ha := hC.lt _ he
    simp only at ha
    have := hwp a; have := hhp' a
    cases d with
    | true =>
      simp only [borderLen, if_true] at hi
      refine ⟨((patchOf_eq hhp hvp hm.1 ha).2 ?_).symm, by simp [borderPair]⟩
      simp only [borderPair, if_true, PInfo.Has]; omega
    | false =>
      simp only [borderLen, Bool.false_eq_true, if_false] at hi
      refine ⟨((patchOf_eq hhp hvp hm.1 ha).2 ?_).symm, ?_⟩
      · simp only [borderPair, Bool.false_eq_true, if_false, PInfo.Has]; omega
      · simp only [borderPair, Bool.false_eq_true, if_false, false_iff]; omega
  rw [List.nodup_flatMap]
  constructor
  · rintro ⟨d, a⟩ _
    refine List.Nodup.map_on ?_ List.nodup_range
    intro x _ y _ hxy
    cases d <;> simp [borderPair] at hxy <;> omega
  · refine hC.nodup.imp_of_mem ?_
    intro e e' he he' hne x hx hx'
    obtain ⟨h1, h2⟩ := hrec e he x hx
    obtain ⟨h3, h4⟩ := hrec e' he' x hx'
    apply hne
    refine Prod.ext ?_ (by rw [h1, h3])
    rw [Bool.eq_iff_iff, h2, h4]

end

end Verif.Partition
