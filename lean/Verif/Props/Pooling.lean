import Verif.Model.Pooling
import Verif.Props.DataType
import Mathlib.Tactic.Linarith
import Mathlib.Data.List.Nodup
import Mathlib.Data.List.Range

/-!
# C175–C177: pooling
-/

namespace Verif.Pooling

open Verif.Spec

theorem mem_span {start kernel size x : Nat} : x ∈ span start kernel size ↔ start ≤ x ∧ x < start + kernel ∧ x < size := by
  rw [span, List.mem_range'_1]; omega

theorem mem_cells {rows cols kr kc r c : Nat} {p : Nat × Nat} :
    p ∈ cells rows cols kr kc r c ↔ InWindow rows cols kr kc r c p := by
  obtain ⟨i, j⟩ := p
  simp only [cells, List.mem_flatMap, List.mem_map, mem_span, Prod.mk.injEq, InWindow]
  constructor
  · rintro ⟨a, ha, b, hb, rfl, rfl⟩; omega
  · intro h; exact ⟨i, by omega, j, by omega, rfl, rfl⟩

theorem cells_listed {rows cols kr kc r c : Nat} (hr : r < rows) (hc : c < cols) (h1 : 0 < kr) (h2 : 0 < kc) :
    ListsWindow rows cols kr kc r c (cells rows cols kr kc r c) := by
  refine ⟨fun h => ?_, ?_, fun p => mem_cells⟩
  · have : (r, c) ∈ cells rows cols kr kc r c := mem_cells.2 (by simp only [InWindow]; omega)
    rw [h] at this; simp at this
  · unfold cells
    rw [List.nodup_flatMap]
    constructor
    · intro i _
      exact (List.nodup_range' ..).map fun a b h => (Prod.mk.inj h).2
    · apply List.Pairwise.imp_of_mem (R := fun a b => a ≠ b) _ (List.nodup_range' ..)
      intro a b _ _ hab p h3 h4
      simp only [List.mem_map] at h3 h4
      obtain ⟨_, _, rfl⟩ := h3
      obtain ⟨_, _, h⟩ := h4
      exact hab (Prod.mk.inj h).1.symm

theorem sumLoop_eq (src : Nat → Nat → ℚ) (w : List (Nat × Nat)) : sumLoop src w = ((w.map fun p => src p.1 p.2).sum, w.length) := by
  have : ∀ (w : List (Nat × Nat)) (a : ℚ) (n : Nat), w.foldl (fun s p => (s.1 + src p.1 p.2, s.2 + 1)) (a, n) =
      (a + (w.map fun p => src p.1 p.2).sum, n + w.length) := by
    intro w
    induction w with
    | nil => intro a n; simp
    | cons p w ih => intro a n; rw [List.foldl_cons, ih]; simp only [List.map_cons, List.sum_cons, List.length_cons, Prod.mk.injEq]; constructor; · ring
                     · omega
  rw [sumLoop, this]; simp

/-- By rows. -/
def RowMajor (p q : Nat × Nat) : Prop := p.1 < q.1 ∨ p.1 = q.1 ∧ p.2 < q.2

theorem cells_sorted (rows cols kr kc r c : Nat) : (cells rows cols kr kc r c).Pairwise RowMajor := by
  unfold cells
  rw [List.pairwise_flatMap]
  constructor
  · intro i _
    rw [List.pairwise_map]
    exact (List.pairwise_lt_range' ..).imp fun h => Or.inr ⟨rfl, h⟩
  · apply (List.pairwise_lt_range' ..).imp
    intro a b hab p hp q hq
    simp only [List.mem_map] at hp hq
    obtain ⟨_, _, rfl⟩ := hp
    obtain ⟨_, _, rfl⟩ := hq
    exact Or.inl hab

/-- The loop keeps the first best of the places that were seen. -/
theorem best_loop {better : ℚ → ℚ → Bool} (cols : Nat) (src : Nat → Nat → ℚ)
    (irr : ∀ a b, better a b → better b a = false) (tr : ∀ a b d, better b a = false → better d b = false → better d a = false)
    (eqv : ∀ a, better a a = false) (w : List (Nat × Nat)) :
    ∀ (p : Nat × Nat), (∀ q ∈ w, RowMajor p q) → w.Pairwise RowMajor →
      ∃ p', (p' = p ∨ p' ∈ w) ∧ w.foldl (bestStep better cols src) (src p.1 p.2, p.1 * cols + p.2) = (src p'.1 p'.2, p'.1 * cols + p'.2) ∧
        ∀ q, q = p ∨ q ∈ w → better (src q.1 q.2) (src p'.1 p'.2) = false ∧
          (better (src p'.1 p'.2) (src q.1 q.2) = false → p' = q ∨ RowMajor p' q) := by
  induction w with
  | nil =>
    intro p _ _
    refine ⟨p, Or.inl rfl, rfl, fun q hq => ?_⟩
    rcases hq with rfl | hq
    · exact ⟨eqv _, fun _ => Or.inl rfl⟩
    · simp at hq
  | cons x w ih =>
    intro p hp hw
    rw [List.pairwise_cons] at hw
    rw [List.foldl_cons, bestStep]
    split
    · rename_i hb
      obtain ⟨p', h1, h2, h3⟩ := ih x hw.1 hw.2
      refine ⟨p', Or.inr ?_, h2, fun q hq => ?_⟩
      · rcases h1 with rfl | h1
        · exact List.mem_cons_self
        · exact List.mem_cons_of_mem _ h1
      · rcases hq with rfl | hq
        · have h4 := (h3 x (Or.inl rfl)).1
          have h5 := irr _ _ hb
          refine ⟨tr _ _ _ h4 h5, fun h => ?_⟩
          have := tr _ _ _ h h4
          simp only at hb this
          rw [hb] at this; cases this
        · exact h3 q (by simpa using hq)
    · rename_i hb
      obtain ⟨p', h1, h2, h3⟩ := ih p (fun q hq => hp q (List.mem_cons_of_mem _ hq)) hw.2
      refine ⟨p', ?_, h2, fun q hq => ?_⟩
      · rcases h1 with rfl | h1
        · exact Or.inl rfl
        · exact Or.inr (List.mem_cons_of_mem _ h1)
      · rcases hq with rfl | hq
        · exact h3 q (Or.inl rfl)
        · rcases List.mem_cons.1 hq with rfl | hq
          · have hb' : better (src q.1 q.2) (src p.1 p.2) = false := by simpa using hb
            obtain ⟨h4, h5⟩ := h3 p (Or.inl rfl)
            refine ⟨tr _ _ _ h4 hb', fun h => Or.inr ?_⟩
            have hpq := hp q List.mem_cons_self
            rcases h5 (tr _ _ _ hb' h) with rfl | h6
            · exact hpq
            · rcases h6 with h6 | ⟨h6, h7⟩ <;> rcases hpq with h8 | ⟨h8, h9⟩ <;> simp only [RowMajor] <;> omega
          · exact h3 q (Or.inr hq)

theorem best_spec {better : ℚ → ℚ → Bool} {rows cols kr kc r c : Nat} (src : Nat → Nat → ℚ)
    (irr : ∀ a b, better a b → better b a = false) (tr : ∀ a b d, better b a = false → better d b = false → better d a = false)
    (eqv : ∀ a, better a a = false) (hr : r < rows) (hc : c < cols) (h1 : 0 < kr) (h2 : 0 < kc) :
    ∃ p, FirstBest (fun a b => better a b = true) src rows cols kr kc r c p ∧
      best better cols src r c (cells rows cols kr kc r c) = (src p.1 p.2, p.1 * cols + p.2) := by
  have hm : (r, c) ∈ cells rows cols kr kc r c := mem_cells.2 (by simp only [InWindow]; omega)
  have hs := cells_sorted rows cols kr kc r c
  have hcell : ∃ w, cells rows cols kr kc r c = (r, c) :: w := by
    cases hcs : cells rows cols kr kc r c with
    | nil => rw [hcs] at hm; simp at hm
    | cons x w =>
      rw [hcs] at hm hs
      rcases List.mem_cons.1 hm with h | h
      · exact ⟨w, by rw [← h]⟩
      · have hx : InWindow rows cols kr kc r c x := mem_cells.1 (by rw [hcs]; exact List.mem_cons_self)
        have := (List.pairwise_cons.1 hs).1 _ h
        simp only [InWindow] at hx
        simp only [RowMajor] at this
        omega
  obtain ⟨w, hw⟩ := hcell
  rw [hw, List.pairwise_cons] at hs
  obtain ⟨p, h3, h4, h5⟩ := best_loop cols src irr tr eqv w (r, c) hs.1 hs.2
  have hin : ∀ q, InWindow rows cols kr kc r c q ↔ q = (r, c) ∨ q ∈ w := by
    intro q; rw [← mem_cells, hw, List.mem_cons]
  refine ⟨p, ⟨(hin p).2 h3, fun q hq => ?_⟩, ?_⟩
  · obtain ⟨h6, h7⟩ := h5 q ((hin q).1 hq)
    refine ⟨by simp [h6], fun he => ?_⟩
    rcases h7 (by rw [he]; exact eqv _) with rfl | h
    · exact Or.inr ⟨rfl, le_refl _⟩
    · rcases h with h | h
      · exact Or.inl h
      · exact Or.inr ⟨h.1, h.2.le⟩
  · rw [best, hw, List.foldl_cons]
    have : bestStep better cols src (src r c, r * cols + c) (r, c) = (src r c, r * cols + c) := by
      rw [bestStep]; simp
    rw [this]; exact h4

theorem addAt_foldl (v : ℚ) (w : List (Nat × Nat)) (hn : w.Nodup) (q : Nat × Nat) :
    ∀ m : Nat × Nat → ℚ, w.foldl (fun m p => addAt m p v) m q = m q + if q ∈ w then v else 0 := by
  induction w with
  | nil => intro m; simp
  | cons p w ih =>
    intro m
    rw [List.nodup_cons] at hn
    rw [List.foldl_cons, ih hn.2, addAt]
    by_cases hq : q = p
    · subst hq; simp [hn.1]
    · simp [hq]

theorem foldl_sum {f : (Nat × Nat → ℚ) → Nat × Nat → Nat × Nat → ℚ} {s : Nat × Nat → ℚ} (q : Nat × Nat) (l : List (Nat × Nat))
    (hf : ∀ m, ∀ g ∈ l, f m g q = m q + s g) : ∀ m, l.foldl f m q = m q + (l.map s).sum := by
  induction l with
  | nil => intro m; simp
  | cons g l ih =>
    intro m
    rw [List.foldl_cons, ih (fun m g hg => hf m g (List.mem_cons_of_mem _ hg)), hf m g List.mem_cons_self, List.map_cons, List.sum_cons]
    ring

theorem sum_single {s : Nat × Nat → ℚ} {l : List (Nat × Nat)} (hn : l.Nodup) {g : Nat × Nat} (hg : g ∈ l) (h : ∀ x ∈ l, x ≠ g → s x = 0) :
    (l.map s).sum = s g := by
  induction l with
  | nil => simp at hg
  | cons x l ih =>
    rw [List.nodup_cons] at hn
    rw [List.map_cons, List.sum_cons]
    rcases List.mem_cons.1 hg with rfl | hg
    · rw [List.sum_eq_zero, add_zero]
      intro a ha
      obtain ⟨b, hb, rfl⟩ := List.mem_map.1 ha
      exact h b (List.mem_cons_of_mem _ hb) fun e => hn.1 (e ▸ hb)
    · rw [ih hn.2 hg fun x hx => h x (List.mem_cons_of_mem _ hx), h x List.mem_cons_self fun e => hn.1 (e ▸ hg), zero_add]

theorem length_cells (rows cols kr kc r c : Nat) :
    (cells rows cols kr kc r c).length = (min (r + kr) rows - r) * (min (c + kc) cols - c) := by
  simp [cells, span, List.length_flatMap]

theorem mem_grid {R C : Nat} {g : Nat × Nat} : g ∈ grid R C ↔ g.1 < R ∧ g.2 < C := by
  obtain ⟨i, j⟩ := g
  simp only [grid, List.mem_flatMap, List.mem_map, List.mem_range, Prod.mk.injEq]
  constructor
  · rintro ⟨a, ha, b, hb, rfl, rfl⟩; exact ⟨ha, hb⟩
  · rintro ⟨h1, h2⟩; exact ⟨i, h1, j, h2, rfl, rfl⟩

theorem grid_nodup (R C : Nat) : (grid R C).Nodup := by
  unfold grid
  rw [List.nodup_flatMap]
  constructor
  · intro i _
    exact List.nodup_range.map fun a b h => (Prod.mk.inj h).2
  · apply List.Pairwise.imp_of_mem (R := fun a b => a ≠ b) _ List.nodup_range
    intro a b _ _ hab p h3 h4
    simp only [List.mem_map] at h3 h4
    obtain ⟨_, _, rfl⟩ := h3
    obtain ⟨_, _, h⟩ := h4
    exact hab (Prod.mk.inj h).1.symm

/-- The windows of a result begin in the source (C124). -/
theorem start_inside {n k s R : Nat} (hs : 1 ≤ s) (h : Verif.DataType.poolSize (n + 1) n k s = some (R : Int)) {i : Nat} (hi : i < R) : i * s < n := by
  obtain ⟨r, h1, h2, _⟩ := Verif.Props.C124_pool (n : Int) k s (by omega) (by omega)
  rw [Int.toNat_natCast, h, Option.some.injEq] at h1
  subst h1
  have := h2.1 i (by omega) (by omega)
  exact_mod_cast this

end Verif.Pooling

namespace Verif.Props

open Verif.Pooling Verif.Spec Verif.DataType

/-- **C175.**  Every element of a pooling with the largest (smallest) value is the value of a place of its window that no value of the window exceeds
(is below), the mask holds that place, the first one by rows, and a pooling by index with this mask gives the same value again. -/
theorem C175_best {rows cols kr kc sr sc R C : Nat} (src : Nat → Nat → ℚ) (hk1 : 0 < kr) (hk2 : 0 < kc) (hs1 : 1 ≤ sr) (hs2 : 1 ≤ sc)
    (hR : poolSize (rows + 1) rows kr sr = some (R : Int)) (hC : poolSize (cols + 1) cols kc sc = some (C : Int))
    {i j : Nat} (hi : i < R) (hj : j < C) (given : Nat) :
    (∃ p, FirstBest (· > ·) src rows cols kr kc (i * sr) (j * sc) p ∧
      poolAt .max rows cols kr kc src given (i * sr) (j * sc) = some (src p.1 p.2, some (p.1 * cols + p.2)) ∧
      poolAt .index rows cols kr kc src (p.1 * cols + p.2) (i * sr) (j * sc) = some (src p.1 p.2, none)) ∧
    ∃ p, FirstBest (· < ·) src rows cols kr kc (i * sr) (j * sc) p ∧
      poolAt .min rows cols kr kc src given (i * sr) (j * sc) = some (src p.1 p.2, some (p.1 * cols + p.2)) ∧
      poolAt .index rows cols kr kc src (p.1 * cols + p.2) (i * sr) (j * sc) = some (src p.1 p.2, none) := by
  have h1 := start_inside hs1 hR hi
  have h2 := start_inside hs2 hC hj
  have back : ∀ p, InWindow rows cols kr kc (i * sr) (j * sc) p →
      poolAt .index rows cols kr kc src (p.1 * cols + p.2) (i * sr) (j * sc) = some (src p.1 p.2, none) := by
    intro p hp
    have hp2 : p.2 < cols := hp.2.2.2.2.2
    have e1 : (p.1 * cols + p.2) / cols = p.1 := by
      rw [Nat.mul_comm, Nat.mul_add_div (by omega), Nat.div_eq_of_lt hp2]; rfl
    have e2 : (p.1 * cols + p.2) % cols = p.2 := by rw [Nat.mul_comm, Nat.mul_add_mod, Nat.mod_eq_of_lt hp2]
    simp only [poolAt, e1, e2]
  constructor
  · obtain ⟨p, h3, h4⟩ := best_spec (better := fun a b => decide (a > b)) (kr := kr) (kc := kc) src
      (fun a b h => by simp at h ⊢; exact h.le) (fun a b d h h' => by simp at h h' ⊢; exact h'.trans h) (fun a => by simp) h1 h2 hk1 hk2
    refine ⟨p, ⟨h3.1, fun q hq => ⟨by simpa using (h3.2 q hq).1, (h3.2 q hq).2⟩⟩, ?_, back p h3.1⟩
    simp only [poolAt, h4]
  · obtain ⟨p, h3, h4⟩ := best_spec (better := fun a b => decide (a < b)) (kr := kr) (kc := kc) src
      (fun a b h => by simp at h ⊢; exact h.le) (fun a b d h h' => by simp at h h' ⊢; exact h.trans h') (fun a => by simp) h1 h2 hk1 hk2
    refine ⟨p, ⟨h3.1, fun q hq => ⟨by simpa using (h3.2 q hq).1, (h3.2 q hq).2⟩⟩, ?_, back p h3.1⟩
    simp only [poolAt, h4]

/-- A window that reaches over the end. -/
example : poolSize 4 3 2 2 = some 2 ∧
    (poolAt .max 3 3 2 2 (fun i j => (i * 3 + j : Nat)) 0 0 2 = some (5, some 5)) ∧
    (poolAt .min 3 3 2 2 (fun i j => (i * 3 + j : Nat)) 0 0 2 = some (2, some 2)) := by decide +kernel

/-- **C176.**  Every element of a pooling by sum, mean or first value is the sum, the mean or the first value of the elements of its window that are in
the source; the mean is always defined. -/
theorem C176_sum {rows cols kr kc sr sc R C : Nat} (src : Nat → Nat → ℚ) (hk1 : 0 < kr) (hk2 : 0 < kc) (hs1 : 1 ≤ sr) (hs2 : 1 ≤ sc)
    (hR : poolSize (rows + 1) rows kr sr = some (R : Int)) (hC : poolSize (cols + 1) cols kc sc = some (C : Int))
    {i j : Nat} (hi : i < R) (hj : j < C) (given : Nat) :
    ∃ w, ListsWindow rows cols kr kc (i * sr) (j * sc) w ∧
      poolAt .sum rows cols kr kc src given (i * sr) (j * sc) = some ((w.map fun p => src p.1 p.2).sum, none) ∧
      poolAt .mean rows cols kr kc src given (i * sr) (j * sc) = some ((w.map fun p => src p.1 p.2).sum / w.length, none) ∧
      poolAt .first rows cols kr kc src given (i * sr) (j * sc) = some (src (i * sr) (j * sc), none) ∧
      InWindow rows cols kr kc (i * sr) (j * sc) (i * sr, j * sc) := by
  have h1 := start_inside hs1 hR hi
  have h2 := start_inside hs2 hC hj
  have h3 := cells_listed h1 h2 hk1 hk2
  refine ⟨_, h3, ?_, ?_, rfl, ?_⟩
  · simp only [poolAt, sumLoop_eq]
  · simp only [poolAt, sumLoop_eq]
    rw [if_neg (by simpa using h3.1)]
  · simp only [InWindow]; omega

example : poolAt .mean 3 3 2 2 (fun i j => (i * 3 + j : Nat)) 0 0 2 = some (7 / 2, none) ∧
    poolAt .sum 3 3 2 2 (fun i j => (i * 3 + j : Nat)) 0 2 2 = some (8, none) := by decide +kernel

/-- **C177, part.**  `unpooling` of means gives each element the equal shares of all windows that contain it, and of first values adds each value to the
first place of its window. -/
theorem C177_unpool_partial {rows cols kr kc sr sc R C : Nat} (y : Nat → Nat → ℚ) (hk1 : 0 < kr) (hk2 : 0 < kc) (hs1 : 1 ≤ sr) (hs2 : 1 ≤ sc)
    (hR : poolSize (rows + 1) rows kr sr = some (R : Int)) (hC : poolSize (cols + 1) cols kc sc = some (C : Int)) :
    (∃ (out : Nat × Nat → ℚ) (w : Nat → Nat → List (Nat × Nat)), unpool .mean rows cols kr kc sr sc R C none y = some out ∧
      (∀ i < R, ∀ j < C, ListsWindow rows cols kr kc (i * sr) (j * sc) (w i j)) ∧
      ∃ all : List (Nat × Nat), all.Nodup ∧ (∀ g, g ∈ all ↔ g.1 < R ∧ g.2 < C) ∧
        ∀ q, out q = (all.map fun g => if q ∈ w g.1 g.2 then y g.1 g.2 / (w g.1 g.2).length else 0).sum) ∧
    ∃ out, unpool .first rows cols kr kc sr sc R C none y = some out ∧
      (∀ i < R, ∀ j < C, out (i * sr, j * sc) = y i j) ∧
      ∀ q, (∀ i < R, ∀ j < C, q ≠ (i * sr, j * sc)) → out q = 0 := by
  constructor
  · have hl : ∀ i < R, ∀ j < C, ListsWindow rows cols kr kc (i * sr) (j * sc) (cells rows cols kr kc (i * sr) (j * sc)) :=
      fun i hi j hj => cells_listed (start_inside hs1 hR hi) (start_inside hs2 hC hj) hk1 hk2
    refine ⟨_, fun i j => cells rows cols kr kc (i * sr) (j * sc), rfl, hl, grid R C, grid_nodup R C, fun g => mem_grid, fun q => ?_⟩
    rw [foldl_sum (s := fun g => if q ∈ cells rows cols kr kc (g.1 * sr) (g.2 * sc) then
      y g.1 g.2 / (cells rows cols kr kc (g.1 * sr) (g.2 * sc)).length else 0) q]
    · simp
    · intro m g hg
      obtain ⟨h1, h2⟩ := mem_grid.1 hg
      simp only [spread]
      rw [addAt_foldl _ _ (hl _ h1 _ h2).2.1, length_cells]
  · have key : ∀ q, (grid R C).foldl (fun m g => addAt m (g.1 * sr, g.2 * sc) (y g.1 g.2)) (fun _ => 0) q =
        ((grid R C).map fun g => if q = (g.1 * sr, g.2 * sc) then y g.1 g.2 else 0).sum := by
      intro q
      rw [foldl_sum (s := fun g => if q = (g.1 * sr, g.2 * sc) then y g.1 g.2 else 0) q]
      · simp
      · intro m g _
        simp only [addAt]
        split <;> simp
    have inj : ∀ a b s : Nat, 1 ≤ s → a * s = b * s → a = b := fun a b s hs h => Nat.eq_of_mul_eq_mul_right (by omega) h
    refine ⟨_, rfl, fun i hi j hj => ?_, fun q hq => ?_⟩
    · rw [key, sum_single (grid_nodup R C) (mem_grid.2 ⟨hi, hj⟩ : (i, j) ∈ grid R C)]
      · simp
      · intro g _ hg
        rw [if_neg]
        intro h
        rw [Prod.mk.injEq] at h
        exact hg (Prod.ext (inj _ _ _ hs1 h.1).symm (inj _ _ _ hs2 h.2).symm)
    · rw [key]
      apply List.sum_eq_zero
      intro x hx
      obtain ⟨g, hg, rfl⟩ := List.mem_map.1 hx
      obtain ⟨h1, h2⟩ := mem_grid.1 hg
      rw [if_neg (hq _ h1 _ h2)]

/-- Overlapping windows. -/
example : (unpool .mean 1 3 1 2 1 1 1 2 none fun _ j => (4 * (j + 1) : Nat)).map (fun f => [f (0, 0), f (0, 1), f (0, 2)]) = some [2, 6, 4] := by
  decide +kernel

/-- **C177 is false.**  `unpooling` of the largest or smallest values, or by index, never has a result: a mask fails the assertion that it is empty, and
without a mask the empty mask is read.  Sums are unsupported. -/
theorem not_C177_unpool (t : PoolType) (ht : t = .max ∨ t = .min ∨ t = .index ∨ t = .sum) (rows cols kr kc sr sc R C : Nat)
    (mask : Option (Nat → Nat → Nat)) (y : Nat → Nat → ℚ) : unpool t rows cols kr kc sr sc R C mask y = none := by
  cases mask with
  | some k => rfl
  | none => rcases ht with rfl | rfl | rfl | rfl <;> rfl

example : (unpool .max 1 2 1 2 2 2 1 1 (some fun _ _ => 1) fun _ _ => 5).isNone = true := by decide +kernel

end Verif.Props
