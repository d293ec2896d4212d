import Verif.Model.Stroke
import Verif.Spec.Stroke
import Mathlib.Data.List.Nodup

/-!
# Stroke widths from rays
-/

namespace Verif.Stroke

open Verif.Spec

/-- A ray lowers its pixels to its width. -/
theorem setRay_spec (r : Ray) (img : Nat × Nat → Int) (p : Nat × Nat) : setRay img r p = if p ∈ r.2 then min (img p) r.1 else img p := by
  obtain ⟨wd, l⟩ := r
  unfold setRay
  dsimp only
  induction l generalizing img with
  | nil => rfl
  | cons a l ih =>
    rw [List.foldl_cons, ih]
    have key : ∀ q, (if wd < img a then fun q => if q = a then wd else img q else img) q = if q = a then min (img q) wd else img q := by
      intro q
      by_cases h : wd < img a
      · rw [if_pos h]
        by_cases e : q = a
        · rw [if_pos e, if_pos e, e]; omega
        · rw [if_neg e, if_neg e]
      · rw [if_neg h]
        by_cases e : q = a
        · rw [if_pos e, e]; omega
        · rw [if_neg e]
    rw [key p]
    by_cases e : p = a
    · rw [if_pos e, if_pos (List.mem_cons.2 (Or.inl e))]
      split <;> omega
    · rw [if_neg e]
      by_cases h : p ∈ l
      · rw [if_pos h, if_pos (List.mem_cons_of_mem _ h)]
      · rw [if_neg h, if_neg (by rw [List.mem_cons]; exact fun h' => h'.elim e h)]

/-- All rays. -/
theorem setRays_spec : ∀ (rays : List Ray) (img : Nat × Nat → Int) (p : Nat × Nat),
    LeastAt rays (fun r => r.1) (img p) p (rays.foldl setRay img p)
  | [], img, p => ⟨le_refl _, by simp, Or.inl rfl⟩
  | r :: l, img, p => by
    rw [List.foldl_cons]
    obtain ⟨h1, h2, h3⟩ := setRays_spec l (setRay img r) p
    rw [setRay_spec] at h1 h3
    refine ⟨?_, ?_, ?_⟩
    · split at h1 <;> omega
    · intro q hq hp
      rcases List.mem_cons.1 hq with rfl | hq
      · rw [if_pos hp] at h1
        show _ ≤ q.1
        omega
      · exact h2 q hq hp
    · rcases h3 with h3 | ⟨q, hq, hp, h3⟩
      · by_cases hp : p ∈ r.2
        · rw [if_pos hp] at h3
          by_cases hle : img p ≤ r.1
          · left; omega
          · exact Or.inr ⟨r, List.mem_cons_self .., hp, by dsimp only; omega⟩
        · rw [if_neg hp] at h3; exact Or.inl h3
      · exact Or.inr ⟨q, List.mem_cons_of_mem _ hq, hp, h3⟩

theorem ins_perm (x : Int) : ∀ l, (ins x l).Perm (x :: l)
  | [] => List.Perm.refl _
  | y :: l => by
    rw [ins]
    split
    · exact List.Perm.refl _
    · exact ((ins_perm x l).cons y).trans (List.Perm.swap x y l)

theorem sort_perm : ∀ l, (sort l).Perm l
  | [] => List.Perm.refl _
  | x :: l => (ins_perm x (sort l)).trans ((sort_perm l).cons x)

theorem ins_sorted (x : Int) : ∀ l, l.Pairwise (· ≤ ·) → (ins x l).Pairwise (· ≤ ·)
  | [], _ => List.pairwise_singleton _ _
  | y :: l, h => by
    rw [ins]
    rw [List.pairwise_cons] at h
    split
    · rename_i hle
      rw [List.pairwise_cons]
      refine ⟨?_, List.pairwise_cons.2 h⟩
      intro z hz
      rcases List.mem_cons.1 hz with rfl | hz
      · exact hle
      · exact le_trans hle (h.1 z hz)
    · rename_i hle
      rw [List.pairwise_cons]
      refine ⟨?_, ins_sorted x l h.2⟩
      intro z hz
      rcases List.mem_cons.1 ((ins_perm x l).mem_iff.1 hz) with rfl | hz
      · omega
      · exact h.1 z hz

theorem sort_sorted : ∀ l, (sort l).Pairwise (· ≤ ·)
  | [] => List.Pairwise.nil
  | x :: l => ins_sorted x _ (sort_sorted l)

/-- At the index `k` of a sorted list, at most `k` values are smaller and at most the rest after it larger. -/
theorem sorted_index : ∀ (s : List Int) (k : Nat) (m : Int), s.Pairwise (· ≤ ·) → s[k]? = some m →
    (s.filter fun x => decide (x < m)).length ≤ k ∧ (s.filter fun x => decide (m < x)).length + k + 1 ≤ s.length
  | [], _, _, _, h => by simp at h
  | x :: l, 0, m, hp, h => by
    simp only [List.getElem?_cons_zero, Option.some.injEq] at h
    subst h
    rw [List.pairwise_cons] at hp
    have h1 : ((x :: l).filter fun y => decide (y < x)) = [] := by
      rw [List.filter_eq_nil_iff]
      intro y hy
      rcases List.mem_cons.1 hy with rfl | hy
      · simp
      · have := hp.1 y hy; simp; omega
    rw [h1]
    refine ⟨by simp, ?_⟩
    rw [List.filter_cons_of_neg (by simp), List.length_cons]
    have := List.length_filter_le (fun y => decide (x < y)) l
    omega
  | x :: l, k + 1, m, hp, h => by
    rw [List.getElem?_cons_succ] at h
    rw [List.pairwise_cons] at hp
    obtain ⟨h1, h2⟩ := sorted_index l k m hp.2 h
    have hx : x ≤ m := hp.1 m (List.mem_of_getElem? h)
    constructor
    · rw [List.filter_cons]
      split
      · rw [List.length_cons]; omega
      · omega
    · rw [List.filter_cons_of_neg (by simp; omega), List.length_cons]
      omega

theorem median_spec {l : List Int} (h : l ≠ []) : ∃ m, median l = some m ∧ IsLowerMedian m l := by
  have hl : 0 < l.length := List.length_pos_iff.2 h
  have hlen : (sort l).length = l.length := (sort_perm l).length_eq
  have hi : (l.length - 1) / 2 < (sort l).length := by omega
  have hm : (sort l)[(l.length - 1) / 2]? = some ((sort l)[(l.length - 1) / 2]) := List.getElem?_eq_getElem hi
  refine ⟨_, hm, (sort_perm l).mem_iff.1 (List.getElem_mem hi), ?_⟩
  obtain ⟨h1, h2⟩ := sorted_index _ _ _ (sort_sorted l) hm
  have e1 := ((sort_perm l).filter fun x => decide (x < (sort l)[(l.length - 1) / 2])).length_eq
  have e2 := ((sort_perm l).filter fun x => decide ((sort l)[(l.length - 1) / 2] < x)).length_eq
  omega

/-- There is only one lower median. -/
theorem median_unique {l : List Int} {a b : Int} (ha : IsLowerMedian a l) (hb : IsLowerMedian b l) : a = b := by
  have key : ∀ {a b : Int}, IsLowerMedian a l → IsLowerMedian b l → ¬a < b := by
    intro a b ha hb hlt
    have hsub : ∀ l : List Int, l.length ≤ (l.filter fun x => decide (x < b)).length + (l.filter fun x => decide (a < x)).length := by
      intro l
      induction l with
      | nil => simp
      | cons x l ih =>
        rw [List.filter_cons, List.filter_cons, List.length_cons]
        by_cases h1 : x < b
        · rw [if_pos (by simpa using h1), List.length_cons]
          split
          · rw [List.length_cons]; omega
          · omega
        · rw [if_neg (by simpa using h1), if_pos (by simp; omega), List.length_cons]
          omega
    have := hsub l
    have := hb.2.1
    have := ha.2.2
    omega
  have h1 := key ha hb
  have h2 := key hb ha
  omega

open Classical in
/-- The median of the values of a ray. -/
noncomputable def med (F : Nat × Nat → Int) (r : Ray) : Int := if h : ∃ m, IsLowerMedian m (r.2.map F) then h.choose else 0

theorem med_eq {F : Nat × Nat → Int} {r : Ray} {m : Int} (h : IsLowerMedian m (r.2.map F)) : med F r = m := by
  have he : ∃ m, IsLowerMedian m (r.2.map F) := ⟨m, h⟩
  unfold med
  rw [dif_pos he]
  exact median_unique he.choose_spec h

theorem medians_spec (F : Nat × Nat → Int) : ∀ rays : List Ray, (∀ r ∈ rays, r.2 ≠ []) →
    medians F rays = some (rays.map fun r => (med F r, r.2)) ∧ ∀ r ∈ rays, IsLowerMedian (med F r) (r.2.map F)
  | [], _ => ⟨rfl, by simp⟩
  | r :: l, h => by
    obtain ⟨h1, h2⟩ := medians_spec F l fun q hq => h q (List.mem_cons_of_mem _ hq)
    obtain ⟨m, h3, h4⟩ := median_spec (l := r.2.map F) (by simpa using h r (List.mem_cons_self ..))
    have h5 := med_eq h4
    refine ⟨?_, ?_⟩
    · rw [medians, h3, Option.bind_some, h1, List.map_cons, h5]
      rfl
    · intro q hq
      rcases List.mem_cons.1 hq with rfl | hq
      · rw [h5]; exact h4
      · exact h2 q hq

theorem stroke_spec (invalid : Int) (rays : List Ray) (h : ∀ r ∈ rays, r.2 ≠ []) : ∃ S, stroke invalid rays = some S ∧ IsStroke rays invalid S := by
  obtain ⟨h1, h2⟩ := medians_spec (rays.foldl setRay fun _ => invalid) rays h
  refine ⟨_, by unfold stroke; dsimp only; rw [h1]; rfl, _, med (rays.foldl setRay fun _ => invalid), fun p => setRays_spec rays _ p, h2, ?_⟩
  intro p
  obtain ⟨k1, k2, k3⟩ := setRays_spec (rays.map fun r => (med (rays.foldl setRay fun _ => invalid) r, r.2)) (rays.foldl setRay fun _ => invalid) p
  refine ⟨k1, ?_, ?_⟩
  · intro r hr hp
    exact k2 _ (List.mem_map.2 ⟨r, hr, rfl⟩) hp
  · rcases k3 with k3 | ⟨q, hq, hp, k3⟩
    · exact Or.inl k3
    · obtain ⟨r, hr, rfl⟩ := List.mem_map.1 hq
      exact Or.inr ⟨r, hr, hp, k3⟩

theorem least_unique {rays rays' : List Ray} (hm : ∀ r, r ∈ rays ↔ r ∈ rays') {f g : Ray → Int} (hf : ∀ r ∈ rays, f r = g r) {b : Int} {p : Nat × Nat} {m n : Int}
    (h1 : LeastAt rays f b p m) (h2 : LeastAt rays' g b p n) : m = n := by
  obtain ⟨a1, a2, a3⟩ := h1
  obtain ⟨b1, b2, b3⟩ := h2
  refine le_antisymm ?_ ?_
  · rcases b3 with e | ⟨r, hr, hp, e⟩
    · rw [e]; exact a1
    · rw [e, ← hf r ((hm r).2 hr)]; exact a2 r ((hm r).2 hr) hp
  · rcases a3 with e | ⟨r, hr, hp, e⟩
    · rw [e]; exact b1
    · rw [e, hf r hr]; exact b2 r ((hm r).1 hr) hp

/-- The stroke widths are determined by the set of the rays. -/
theorem stroke_unique {rays rays' : List Ray} (hm : ∀ r, r ∈ rays ↔ r ∈ rays') {b : Int} {S T : Nat × Nat → Int} (h1 : IsStroke rays b S) (h2 : IsStroke rays' b T) :
    S = T := by
  obtain ⟨F, f, a1, a2, a3⟩ := h1
  obtain ⟨G, g, b1, b2, b3⟩ := h2
  have hFG : F = G := funext fun p => least_unique hm (fun _ _ => rfl) (a1 p) (b1 p)
  subst hFG
  funext p
  exact least_unique hm (fun r hr => median_unique (a2 r hr) (b2 r ((hm r).1 hr))) (a3 p) (b3 p)

/-- The range covers all valid values. -/
theorem range_spec (invalid : Int) : ∀ (l : List Int) (s : Int × Int), s.1 ≤ (range invalid l s).1 ∧ (range invalid l s).2 ≤ s.2 ∧
    (∀ v ∈ l, v ≠ invalid → (range invalid l s).2 ≤ v ∧ v ≤ (range invalid l s).1) ∧
    ((range invalid l s).1 = s.1 ∨ ((range invalid l s).1 ∈ l ∧ (range invalid l s).1 ≠ invalid)) ∧
    ((range invalid l s).2 = s.2 ∨ ((range invalid l s).2 ∈ l ∧ (range invalid l s).2 ≠ invalid))
  | [], s => ⟨le_refl _, le_refl _, by simp, Or.inl rfl, Or.inl rfl⟩
  | v :: l, s => by
    rw [range]
    by_cases hv : v ≠ invalid
    · rw [if_pos hv]
      obtain ⟨h1, h2, h3, h4, h5⟩ := range_spec invalid l (max v s.1, min v s.2)
      dsimp only at h1 h2 h4 h5
      refine ⟨by omega, by omega, ?_, ?_, ?_⟩
      · intro u hu hn
        rcases List.mem_cons.1 hu with rfl | hu
        · omega
        · exact h3 u hu hn
      · rcases h4 with h | ⟨h, h'⟩
        · rcases le_total v s.1 with e | e
          · left; omega
          · right
            have : (range invalid l (max v s.1, min v s.2)).1 = v := by omega
            rw [this]; exact ⟨List.mem_cons_self .., hv⟩
        · exact Or.inr ⟨List.mem_cons_of_mem _ h, h'⟩
      · rcases h5 with h | ⟨h, h'⟩
        · rcases le_total v s.2 with e | e
          · right
            have : (range invalid l (max v s.1, min v s.2)).2 = v := by omega
            rw [this]; exact ⟨List.mem_cons_self .., hv⟩
          · left; omega
        · exact Or.inr ⟨List.mem_cons_of_mem _ h, h'⟩
    · rw [if_neg hv]
      obtain ⟨h1, h2, h3, h4, h5⟩ := range_spec invalid l s
      refine ⟨h1, h2, ?_, h4.imp id fun h => ⟨List.mem_cons_of_mem _ h.1, h.2⟩, h5.imp id fun h => ⟨List.mem_cons_of_mem _ h.1, h.2⟩⟩
      intro u hu hn
      rcases List.mem_cons.1 hu with rfl | hu
      · exact absurd hn hv
      · exact h3 u hu hn

end Verif.Stroke
