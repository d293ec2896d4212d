import Verif.Proof.ScheduleV1
import Verif.Props.Partition

/-!
# Fast MSER V1: the tree and the lists of the whole image
-/

namespace Verif.V1

open Function (update)
open Verif.Spec
open Verif.Partition
open Verif.Props (FloodedV1 treeOfV1 posOf)
open Verif.Connect (Ctx Up Good Lab samePatch addPairs initLab init_lab)

variable {hp vp w h n : Nat} {img : Nat → Nat → Nat} {gm : Nat} {eight : Bool} {v : Nat → St} {lab : Nat → Nat × Nat → Nat}
  {L : Nat → Nat → List Nat} {pk : Nat → Nat → Point} {pts : Nat → Point}

/-! ### Which sides have a table -/

theorem tablesV1 (hl : layoutV1 n = some (hp, vp)) : ∀ k < n,
    (joinedV1 n k 0 = true ↔ k % hp ≠ 0) ∧ (joinedV1 n k 1 = true ↔ k % hp + 1 < hp) ∧
    (joinedV1 n k 2 = true ↔ k / hp ≠ 0) ∧ (joinedV1 n k 3 = true ↔ k / hp + 1 < vp) := by
  rcases layoutV1_list hl with ⟨rfl, rfl, rfl⟩ | ⟨rfl, rfl, rfl⟩ | ⟨rfl, rfl, rfl⟩ | ⟨rfl, rfl, rfl⟩ | ⟨rfl, rfl, rfl⟩ | ⟨rfl, rfl, rfl⟩
  all_goals decide

/-! ### The regions in the tables -/

theorem labAt (hhp : 1 ≤ hp) (hvp : 1 ≤ vp) {k : Nat} (hk : k < hp * vp) {q : Nat × Nat}
    (hq : q ∈ pixels (pinfo hp vp w h k).width (pinfo hp vp w h k).height) :
    (q.1 + (pinfo hp vp w h k).left, q.2 + (pinfo hp vp w h k).top) ∈ pixels w h ∧
    patchOf hp vp w h (q.1 + (pinfo hp vp w h k).left, q.2 + (pinfo hp vp w h k).top) = k ∧
    (ctxV1 hp vp w h img gm v lab).lab (q.1 + (pinfo hp vp w h k).left, q.2 + (pinfo hp vp w h k).top) = (k, lab k q) := by
  have hq' := mem_pixels.1 hq
  have hm := Finset.mem_filter.1 ((hasPixel (w := w) (h := h) hhp hvp hk
    (q.1 + (pinfo hp vp w h k).left, q.2 + (pinfo hp vp w h k).top)).2 (by unfold PInfo.Has; dsimp only; omega))
  refine ⟨hm.1, hm.2, ?_⟩
  show initLab _ _ _ = _
  unfold initLab
  rw [hm.2]
  unfold patchTreeV1
  dsimp only
  rw [Nat.add_sub_cancel, Nat.add_sub_cancel]

/-- The border exists. -/
def BorderOK (hp vp : Nat) (b : Border) : Prop := if b.1 then b.2 + 1 < hp else b.2 + 1 < vp

section
variable (hl : layoutV1 n = some (hp, vp)) (hw : hp ≤ w) (hh : vp ≤ h)
include hl hw hh

/-- One join: entries of the tables, and the pixels they stand for. -/
theorem join_spec (hF : AllFlooded eight hp vp w h img gm pk v lab L) {b : Border} (hb : BorderOK hp vp b) {i s : Nat}
    (hi : i < borderSize w h b) :
    (pairOf hp vp w h b i).1 ∈ pixels w h ∧ (pairOf hp vp w h b i).2 ∈ pixels w h ∧
    patchOf hp vp w h (pairOf hp vp w h b i).1 ≠ patchOf hp vp w h (pairOf hp vp w h b i).2 ∧
    entryRegion v (mkJoin hp vp w h b (i, s)).1 = some ((ctxV1 hp vp w h img gm v lab).lab (pairOf hp vp w h b i).1) ∧
    entryRegion v (mkJoin hp vp w h b (i, s)).2.1 = some ((ctxV1 hp vp w h img gm v lab).lab (pairOf hp vp w h b i).2) := by
  obtain ⟨hn, hhp, hvp, _⟩ := Props.layoutV1_cases (w := w) (h := h) hl
  have htab := tablesV1 hl
  rw [hn] at htab
  obtain ⟨d, j⟩ := b
  cases d
  · simp only [BorderOK, Bool.false_eq_true, if_false] at hb
    simp only [borderSize, Bool.false_eq_true, if_false] at hi
    obtain ⟨p1, p2, p3⟩ := partOf_spec hhp hi
    simp only [pairOf, mkJoin, Bool.false_eq_true, if_false]
    generalize ht : partOf hp w i = t at *
    have hk : hp * j + t < hp * vp := by
      have : hp * (j + 1) ≤ hp * vp := Nat.mul_le_mul_left _ (by omega)
      rw [Nat.mul_succ] at this; omega
    obtain ⟨k1, k2⟩ := patch_div (b := j) p1
    rw [Nat.mul_comm j hp] at k1 k2
    obtain ⟨l1, l2, l3⟩ := lower_patch (vp := vp) hhp (a := hp * j + t) (by omega)
    have e1 : pinfo hp vp w h (hp * j + t) = ⟨starts hp w t, starts vp h j, lengths hp w t, lengths vp h j⟩ := by
      unfold pinfo; rw [k1, k2]
    have e2 : pinfo hp vp w h (hp * j + t + hp) = ⟨starts hp w t, starts vp h (j + 1), lengths hp w t, lengths vp h (j + 1)⟩ := by
      unfold pinfo; rw [l2, l3, k1, k2]
    have n1 := lengths_next (total := h) hb
    have n2 := lengths_pos (i := j) hvp hh
    have n3 := lengths_pos (i := j + 1) hvp hh
    have q1 : ((i - starts hp w t, lengths vp h j - 1) : Nat × Nat) ∈ pixels (pinfo hp vp w h (hp * j + t)).width
        (pinfo hp vp w h (hp * j + t)).height := by rw [e1, mem_pixels]; dsimp only; omega
    have q2 : ((i - starts hp w t, 0) : Nat × Nat) ∈ pixels (pinfo hp vp w h (hp * j + t + hp)).width
        (pinfo hp vp w h (hp * j + t + hp)).height := by rw [e2, mem_pixels]; dsimp only; omega
    obtain ⟨a1, a2, a3⟩ := labAt (img := img) (gm := gm) (v := v) (lab := lab) hhp hvp hk q1
    obtain ⟨b1, b2, b3⟩ := labAt (img := img) (gm := gm) (v := v) (lab := lab) hhp hvp l1 q2
    have x1 : ((i - starts hp w t + (pinfo hp vp w h (hp * j + t)).left,
        lengths vp h j - 1 + (pinfo hp vp w h (hp * j + t)).top) : Nat × Nat) = (i, starts vp h (j + 1) - 1) := by
      rw [e1]; exact Prod.ext (by dsimp only; omega) (by dsimp only; omega)
    have x2 : ((i - starts hp w t + (pinfo hp vp w h (hp * j + t + hp)).left,
        0 + (pinfo hp vp w h (hp * j + t + hp)).top) : Nat × Nat) = (i, starts vp h (j + 1)) := by
      rw [e2]; exact Prod.ext (by dsimp only; omega) (by dsimp only; omega)
    dsimp only at a1 a2 a3 b1 b2 b3
    rw [x1] at a1 a2 a3
    rw [x2] at b1 b2 b3
    refine ⟨a1, b1, by rw [a2, b2]; omega, ?_, ?_⟩
    · rw [a3]
      have := ((hF _ hk).side _ q1).2.2.2 ((htab _ hk).2.2.2.2 (by rw [k2]; exact hb)) (by rw [e1]; dsimp only; omega)
      unfold entryRegion
      dsimp only at this ⊢
      rw [this]; rfl
    · rw [b3]
      have := ((hF _ l1).side _ q2).2.2.1 ((htab _ l1).2.2.1.2 (by rw [l3]; omega)) rfl
      unfold entryRegion
      dsimp only at this ⊢
      rw [this]; rfl
  · simp only [BorderOK, if_true] at hb
    simp only [borderSize, if_true] at hi
    obtain ⟨p1, p2, p3⟩ := partOf_spec hvp hi
    simp only [pairOf, mkJoin, if_true]
    generalize ht : partOf vp h i = t at *
    have hk : j + hp * t < hp * vp := by
      have : hp * (t + 1) ≤ hp * vp := Nat.mul_le_mul_left _ (by omega)
      rw [Nat.mul_succ] at this; omega
    obtain ⟨k1, k2⟩ := patch_div (b := t) (show j < hp by omega)
    rw [Nat.mul_comm t hp, Nat.add_comm] at k1 k2
    obtain ⟨l1, l2, l3⟩ := right_patch (vp := vp) hhp hk (by omega)
    have e1 : pinfo hp vp w h (j + hp * t) = ⟨starts hp w j, starts vp h t, lengths hp w j, lengths vp h t⟩ := by
      unfold pinfo; rw [k1, k2]
    have e2 : pinfo hp vp w h (j + hp * t + 1) = ⟨starts hp w (j + 1), starts vp h t, lengths hp w (j + 1), lengths vp h t⟩ := by
      unfold pinfo; rw [l2, l3, k1, k2]
    have n1 := lengths_next (total := w) hb
    have n2 := lengths_pos (i := j) hhp hw
    have n3 := lengths_pos (i := j + 1) hhp hw
    have q1 : ((lengths hp w j - 1, i - starts vp h t) : Nat × Nat) ∈ pixels (pinfo hp vp w h (j + hp * t)).width
        (pinfo hp vp w h (j + hp * t)).height := by rw [e1, mem_pixels]; dsimp only; omega
    have q2 : ((0, i - starts vp h t) : Nat × Nat) ∈ pixels (pinfo hp vp w h (j + hp * t + 1)).width
        (pinfo hp vp w h (j + hp * t + 1)).height := by rw [e2, mem_pixels]; dsimp only; omega
    obtain ⟨a1, a2, a3⟩ := labAt (img := img) (gm := gm) (v := v) (lab := lab) hhp hvp hk q1
    obtain ⟨b1, b2, b3⟩ := labAt (img := img) (gm := gm) (v := v) (lab := lab) hhp hvp l1 q2
    have x1 : ((lengths hp w j - 1 + (pinfo hp vp w h (j + hp * t)).left,
        i - starts vp h t + (pinfo hp vp w h (j + hp * t)).top) : Nat × Nat) = (starts hp w (j + 1) - 1, i) := by
      rw [e1]; exact Prod.ext (by dsimp only; omega) (by dsimp only; omega)
    have x2 : ((0 + (pinfo hp vp w h (j + hp * t + 1)).left,
        i - starts vp h t + (pinfo hp vp w h (j + hp * t + 1)).top) : Nat × Nat) = (starts hp w (j + 1), i) := by
      rw [e2]; exact Prod.ext (by dsimp only; omega) (by dsimp only; omega)
    dsimp only at a1 a2 a3 b1 b2 b3
    rw [x1] at a1 a2 a3
    rw [x2] at b1 b2 b3
    refine ⟨a1, b1, by rw [a2, b2]; omega, ?_, ?_⟩
    · rw [a3]
      have := ((hF _ hk).side _ q1).2.1 ((htab _ hk).2.1.2 (by rw [k1]; exact hb)) (by rw [e1]; dsimp only; omega)
      unfold entryRegion
      dsimp only at this ⊢
      rw [this]; rfl
    · rw [b3]
      have := ((hF _ l1).side _ q2).1 ((htab _ l1).1.2 (by rw [l2]; omega)) rfl
      unfold entryRegion
      dsimp only at this ⊢
      rw [this]; rfl

/-- The pixels of a join lie in different patches of the image. -/
theorem pair_spec {b : Border} (hb : BorderOK hp vp b) {i : Nat} (hi : i < borderSize w h b) :
    (pairOf hp vp w h b i).1 ∈ pixels w h ∧ (pairOf hp vp w h b i).2 ∈ pixels w h ∧
    patchOf hp vp w h (pairOf hp vp w h b i).1 ≠ patchOf hp vp w h (pairOf hp vp w h b i).2 := by
  obtain ⟨hn, hhp, hvp, _⟩ := Props.layoutV1_cases (w := w) (h := h) hl
  obtain ⟨d, j⟩ := b
  cases d
  · simp only [BorderOK, Bool.false_eq_true, if_false] at hb
    simp only [borderSize, Bool.false_eq_true, if_false] at hi
    simp only [pairOf, Bool.false_eq_true, if_false]
    have n1 := lengths_next (total := h) hb
    have n2 := lengths_pos (i := j) hvp hh
    have n3 := lengths_pos (i := j + 1) hvp hh
    have n4 : starts vp h (j + 1) < h := by
      have e := lengths_sum (total := h) hvp
      have : starts vp h (j + 1) ≤ starts vp h (vp - 1) := by
        rw [starts_eq, starts_eq]; exact Nat.mul_le_mul_right _ (by omega)
      have := lengths_pos (i := vp - 1) hvp hh
      omega
    refine ⟨mem_pixels.2 ⟨hi, by dsimp only; omega⟩, mem_pixels.2 ⟨hi, n4⟩, ?_⟩
    unfold patchOf
    dsimp only
    rw [(partOf_eq hvp (show starts vp h (j + 1) - 1 < h by omega) (show j < vp by omega)).2 (by omega),
      (partOf_eq hvp n4 hb).2 (by omega), Nat.succ_mul]
    omega
  · simp only [BorderOK, if_true] at hb
    simp only [borderSize, if_true] at hi
    simp only [pairOf, if_true]
    have n1 := lengths_next (total := w) hb
    have n2 := lengths_pos (i := j) hhp hw
    have n3 := lengths_pos (i := j + 1) hhp hw
    have n4 : starts hp w (j + 1) < w := by
      have e := lengths_sum (total := w) hhp
      have : starts hp w (j + 1) ≤ starts hp w (hp - 1) := by
        rw [starts_eq, starts_eq]; exact Nat.mul_le_mul_right _ (by omega)
      have := lengths_pos (i := hp - 1) hhp hw
      omega
    refine ⟨mem_pixels.2 ⟨by dsimp only; omega, hi⟩, mem_pixels.2 ⟨n4, hi⟩, ?_⟩
    unfold patchOf
    dsimp only
    rw [(partOf_eq hhp (show starts hp w (j + 1) - 1 < w by omega) (show j < hp by omega)).2 (by omega),
      (partOf_eq hhp n4 hb).2 (by omega)]
    omega

/-- A step from one patch to the next is at a border. -/
theorem cross {x y : Nat × Nat} (hx : x ∈ pixels w h) (hy : y ∈ pixels w h)
    (hne : patchOf hp vp w h x ≠ patchOf hp vp w h y) (hd : (y.1 = x.1 + 1 ∧ y.2 = x.2) ∨ (y.1 = x.1 ∧ y.2 = x.2 + 1)) :
    ∃ b i, BorderOK hp vp b ∧ i < borderSize w h b ∧ pairOf hp vp w h b i = (x, y) := by
  obtain ⟨hn, hhp, hvp, _⟩ := Props.layoutV1_cases (w := w) (h := h) hl
  rw [mem_pixels] at hx hy
  rcases hd with ⟨d1, d2⟩ | ⟨d1, d2⟩
  · obtain ⟨p1, p2, p3⟩ := partOf_spec hhp hx.1
    have hne' : partOf hp w y.1 ≠ partOf hp w x.1 := by
      intro e; apply hne; unfold patchOf; rw [d2, e]
    generalize partOf hp w x.1 = j at *
    have h1 : ¬ (starts hp w j ≤ y.1 ∧ y.1 < starts hp w j + lengths hp w j) := fun k => hne' ((partOf_eq hhp hy.1 p1).2 k)
    have h2 : j + 1 < hp := by
      by_contra c
      obtain rfl : j = hp - 1 := by omega
      have := lengths_sum (total := w) hhp
      omega
    have h3 := lengths_next (total := w) h2
    refine ⟨(true, j), x.2, by simpa [BorderOK] using h2, by simpa [borderSize] using hx.2, ?_⟩
    simp only [pairOf, if_true]
    exact Prod.ext (Prod.ext (by dsimp only; omega) rfl) (Prod.ext (by dsimp only; omega) (by dsimp only; omega))
  · obtain ⟨p1, p2, p3⟩ := partOf_spec hvp hx.2
    have hne' : partOf vp h y.2 ≠ partOf vp h x.2 := by
      intro e; apply hne; unfold patchOf; rw [d1, e]
    generalize partOf vp h x.2 = j at *
    have h1 : ¬ (starts vp h j ≤ y.2 ∧ y.2 < starts vp h j + lengths vp h j) := fun k => hne' ((partOf_eq hvp hy.2 p1).2 k)
    have h2 : j + 1 < vp := by
      by_contra c
      obtain rfl : j = vp - 1 := by omega
      have := lengths_sum (total := h) hvp
      omega
    have h3 := lengths_next (total := h) h2
    refine ⟨(false, j), x.1, by simpa [BorderOK] using h2, by simpa [borderSize] using hx.1, ?_⟩
    simp only [pairOf, Bool.false_eq_true, if_false]
    exact Prod.ext (Prod.ext rfl (by dsimp only; omega)) (Prod.ext (by dsimp only; omega) (by dsimp only; omega))

end

theorem resolve_map {β : Type} (f : β → Join) (ra rb : β → Nat × Nat) (s : β → Nat) : ∀ (l : List β),
    (∀ x ∈ l, entryRegion v (f x).1 = some (ra x) ∧ entryRegion v (f x).2.1 = some (rb x) ∧ (f x).2.2 = s x) →
    resolve v (l.map f) = some (l.map (fun x => (ra x, rb x, s x)))
  | [], _ => rfl
  | x :: l, hx => by
    obtain ⟨h1, h2, h3⟩ := hx x (by simp)
    have ih := resolve_map f ra rb s l (fun y hy => hx y (by simp [hy]))
    rw [List.map_cons, List.map_cons]
    rcases hf : f x with ⟨a, b, c⟩
    rw [hf] at h1 h2 h3
    dsimp only at h1 h2 h3
    unfold resolve
    rw [h1, h2, ih]
    dsimp only
    rw [h3]

/-- The adjacency described by the tree: the one of the mode within patches, 4-adjacency across borders. -/
def MixedAdj (eight : Bool) (hp vp w h : Nat) (x y : Nat × Nat) : Prop :=
  (AdjV1 eight w h x y ∧ patchOf hp vp w h x = patchOf hp vp w h y) ∨
  (Adj4 w h x y ∧ patchOf hp vp w h x ≠ patchOf hp vp w h y)

/-- The main result about V1. -/
theorem merge_v1 (hl : layoutV1 n = some (hp, vp)) (hw : hp ≤ w) (hh : vp ≤ h)
    (hF : AllFlooded eight hp vp w h img gm pk v lab L) (hg : ∀ p ∈ pixels w h, gval img gm p < 256) {fuel steps : Nat}
    (hn : 513 ≤ steps) (hf : steps * ((hp - 1) * h + (vp - 1) * w + 1) ≤ fuel) :
    ∃ M, mergeTreesV1 n hp vp w h img gm v pts fuel steps = some M ∧
      VGood (ctxV1 hp vp w h img gm v lab) (IsPoint hp vp w h)
        (fun p => (ctxV1 hp vp w h img gm v lab).lab (ptPos (memV1 n (pinfo hp vp w h) v pts) p))
        (MixedAdj eight hp vp w h) M ∧
      Fixed (memV1 n (pinfo hp vp w h) v pts) M ∧ M.merges ≤ fuel := by
  obtain ⟨hnn, hhp, hvp, _⟩ := Props.layoutV1_cases (w := w) (h := h) hl
  obtain ⟨J, fl, hJ, hP⟩ := joinsV1_plan (img := img) (gm := gm) hl hw hh
  obtain ⟨b1, b2, b3, b4⟩ := bordersV1_spec hl
  have hlen : fl.length = (hp - 1) * h + (vp - 1) * w := by rw [hP.length, b4]
  have hbord : ∀ b, b ∈ bordersV1 n ↔ BorderOK hp vp b := by
    rintro ⟨d, j⟩
    cases d
    · rw [b3]; simp [BorderOK]
    · rw [b2]; simp [BorderOK]
  have hfl : ∀ x ∈ fl, BorderOK hp vp x.1 ∧ x.2.1 < borderSize w h x.1 := by
    intro x hx
    have := (hP.mem x.1 x.2.1).1 (List.mem_map.2 ⟨x, hx, rfl⟩)
    exact ⟨(hbord _).1 this.1, this.2⟩
  have hres : resolve v J = some ((fl.map (fun x => (pairOf hp vp w h x.1 x.2.1, x.2.2))).map (fun e =>
      ((ctxV1 hp vp w h img gm v lab).lab e.1.1, (ctxV1 hp vp w h img gm v lab).lab e.1.2, e.2))) := by
    rw [hP.eq, List.map_map]
    refine resolve_map _ _ _ _ fl (fun x hx => ?_)
    obtain ⟨h1, h2⟩ := hfl x hx
    obtain ⟨_, _, _, k1, k2⟩ := join_spec (s := x.2.2) hl hw hh hF h1 h2
    refine ⟨k1, k2, ?_⟩
    unfold mkJoin; split <;> rfl
  have hpx : ∀ e ∈ fl.map (fun x => (pairOf hp vp w h x.1 x.2.1, x.2.2)),
      e.1.1 ∈ (ctxV1 hp vp w h img gm v lab).px ∧ e.1.2 ∈ (ctxV1 hp vp w h img gm v lab).px := by
    intro e he
    obtain ⟨x, hx, rfl⟩ := List.mem_map.1 he
    obtain ⟨h1, h2⟩ := hfl x hx
    obtain ⟨k1, k2, _⟩ := join_spec (s := x.2.2) hl hw hh hF h1 h2
    exact ⟨k1, k2⟩
  subst hnn
  have hadj : addPairs (samePatch (AdjV1 eight w h) (patchOf hp vp w h))
      ((fl.map (fun x => (pairOf hp vp w h x.1 x.2.1, x.2.2))).map Prod.fst) = MixedAdj eight hp vp w h := by
    funext x y
    apply propext
    have hmem : ∀ x y, (x, y) ∈ (fl.map (fun x => (pairOf hp vp w h x.1 x.2.1, x.2.2))).map Prod.fst ↔
        x ∈ pixels w h ∧ y ∈ pixels w h ∧ patchOf hp vp w h x ≠ patchOf hp vp w h y ∧
        ((y.1 = x.1 + 1 ∧ y.2 = x.2) ∨ (y.1 = x.1 ∧ y.2 = x.2 + 1)) := by
      intro x y
      rw [List.map_map, List.mem_map]
      constructor
      · rintro ⟨z, hz, e⟩
        obtain ⟨h1, h2⟩ := hfl z hz
        obtain ⟨k1, k2, k3, _⟩ := join_spec (s := z.2.2) hl hw hh hF h1 h2
        simp only [Function.comp] at e
        rw [e] at k1 k2 k3
        refine ⟨k1, k2, k3, ?_⟩
        unfold BorderOK at h1
        unfold pairOf at e
        split at e
        · rename_i hc
          rw [if_pos hc] at h1
          have := lengths_next (total := w) h1
          have := lengths_pos (i := z.1.2) hhp hw
          rw [Prod.mk.injEq] at e
          obtain ⟨rfl, rfl⟩ := e
          left; dsimp only; omega
        · rename_i hc
          rw [if_neg hc] at h1
          have := lengths_next (total := h) h1
          have := lengths_pos (i := z.1.2) hvp hh
          rw [Prod.mk.injEq] at e
          obtain ⟨rfl, rfl⟩ := e
          right; dsimp only; omega
      · rintro ⟨h1, h2, h3, h4⟩
        obtain ⟨b, i, k1, k2, k3⟩ := cross hl hw hh h1 h2 h3 h4
        obtain ⟨z, hz, e⟩ := List.mem_map.1 ((hP.mem b i).2 ⟨(hbord b).2 k1, k2⟩)
        rw [Prod.mk.injEq] at e
        refine ⟨z, hz, ?_⟩
        simp only [Function.comp]
        rw [e.1, e.2, k3]
    unfold addPairs samePatch MixedAdj
    rw [hmem, hmem]
    unfold Adj4
    constructor
    · rintro (h | ⟨a, b, c, d⟩ | ⟨a, b, c, d⟩)
      · exact .inl h
      · exact .inr ⟨⟨a, b, by omega⟩, c⟩
      · exact .inr ⟨⟨b, a, by omega⟩, fun k => c k.symm⟩
    · rintro (h | ⟨⟨a, b, c⟩, e⟩)
      · exact .inl h
      · rcases (show ((y.1 = x.1 + 1 ∧ y.2 = x.2) ∨ (y.1 = x.1 ∧ y.2 = x.2 + 1)) ∨
            ((x.1 = y.1 + 1 ∧ x.2 = y.2) ∨ (x.1 = y.1 ∧ x.2 = y.2 + 1)) by omega) with d | d
        · exact .inr (.inl ⟨a, b, e, d⟩)
        · exact .inr (.inr ⟨b, a, fun h => e h.symm, d⟩)
  have hlen' : (fl.map (fun x => (pairOf hp vp w h x.1 x.2.1, x.2.2))).length = (hp - 1) * h + (vp - 1) * w := by
    rw [List.length_map, hlen]
  have hinit := init_vgood (pts := pts) hhp hvp hF hg
  obtain ⟨M, h1, h2, h3⟩ := joinAll_vgood (fuel := fuel) (steps := steps) (init_lab (allFlooded hhp hvp hg hF))
    (points2 (pts := pts) hhp hvp hF) hn _ hinit hpx (by
      rw [hlen']; show 0 + _ ≤ _; omega)
  rw [hadj] at h2
  refine ⟨M, ?_, h2, joinAll_fixed h1, ?_⟩
  · unfold mergeTreesV1
    rw [hJ]; dsimp only
    rw [hres]; exact h1
  · rw [hlen'] at h3
    have e0 : (memV1 (hp * vp) (pinfo hp vp w h) v pts).merges = 0 := rfl
    rw [e0] at h3
    rw [Nat.mul_succ] at hf
    omega

end Verif.V1
