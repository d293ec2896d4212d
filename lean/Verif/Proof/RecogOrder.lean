import Verif.Proof.RecogAccel
import Mathlib.Data.List.Forall2
import Mathlib.Data.List.Flatten
import Mathlib.Algebra.BigOperators.Group.List.Basic
import Mathlib.Data.List.Range

/-!
# Proof: ordering of the candidates by gray level
-/

namespace Verif.Recog

open Function (update)

variable {ι : Type} [DecidableEq ι]

/-- The list of candidates level by level, each level in creation order. -/
def byGray (R : RForest ι) (order : List ι) (n : Nat) : List ι :=
  (List.range n).flatMap fun g => order.filter (unk R g)

omit [DecidableEq ι] in
theorem byGray_succ (R : RForest ι) (order : List ι) (n : Nat) :
    byGray R order (n + 1) = byGray R order n ++ order.filter (unk R n) := by
  unfold byGray; rw [List.range_succ, List.flatMap_append]; simp

omit [DecidableEq ι] in
theorem byGray_add (R : RForest ι) (order : List ι) (n : Nat) : ∀ k, ∃ t,
    byGray R order (n + k) = byGray R order n ++ t
  | 0 => ⟨[], by simp⟩
  | k + 1 => by
    obtain ⟨t, ht⟩ := byGray_add R order n k
    exact ⟨t ++ order.filter (unk R (n + k)), by rw [← Nat.add_assoc, byGray_succ, ht, List.append_assoc]⟩

omit [DecidableEq ι] in
/-- Entry `j` of level `g`. -/
theorem byGray_get (R : RForest ι) (order : List ι) {n g j : Nat} (hg : g < n)
    (hj : j < (order.filter (unk R g)).length) :
    (byGray R order n)[(byGray R order g).length + j]? = (order.filter (unk R g))[j]? := by
  obtain ⟨k, rfl⟩ : ∃ k, n = g + 1 + k := ⟨n - (g + 1), by omega⟩
  obtain ⟨t, ht⟩ := byGray_add R order (g + 1) k
  rw [ht, byGray_succ, List.append_assoc, List.getElem?_append_right (by omega), Nat.add_sub_cancel_left,
    List.getElem?_append_left hj]

omit [DecidableEq ι] in
/-- Every index lies in some level. -/
theorem byGray_index (R : RForest ι) (order : List ι) {i : Nat} : ∀ {n : Nat}, i < (byGray R order n).length →
    ∃ g j, g < n ∧ j < (order.filter (unk R g)).length ∧ i = (byGray R order g).length + j
  | 0, h => by simp [byGray] at h
  | n + 1, h => by
    by_cases hi : i < (byGray R order n).length
    · obtain ⟨g, j, h1, h2, h3⟩ := byGray_index R order hi
      exact ⟨g, j, by omega, h2, h3⟩
    · rw [byGray_succ, List.length_append] at h
      exact ⟨n, i - (byGray R order n).length, by omega, by omega, by omega⟩

omit [DecidableEq ι] in
theorem startIndex_eq {R : RForest ι} {order : List ι} {lev : Nat → Int}
    (hlev : ∀ g, lev g = (order.countP (unk R g) : Int)) : ∀ n, startIndex lev n = ((byGray R order n).length : Int)
  | 0 => rfl
  | n + 1 => by
    rw [byGray_succ, List.length_append, startIndex, startIndex_eq hlev n, hlev, List.countP_eq_length_filter]
    push_cast; rfl

omit [DecidableEq ι] in
/-- The levels together hold all candidates. -/
theorem byGray_length {R : RForest ι} : ∀ {order : List ι} {n : Nat},
    (∀ r ∈ order, (R r).flag = .unknown → (R r).gray < n) → (byGray R order n).length = order.countP (cand R)
  | [], n, _ => by
    unfold byGray
    rw [List.length_flatMap]; simp
  | r :: order, n, h => by
    have ih := byGray_length (order := order) (n := n) (fun x hx => h x (by simp [hx]))
    unfold byGray at ih ⊢
    rw [List.length_flatMap] at ih ⊢
    rw [List.countP_cons, ← ih]
    have e : ∀ g, ((r :: order).filter (unk R g)).length =
        (order.filter (unk R g)).length + (if (R r).gray = g ∧ (R r).flag = .unknown then 1 else 0) := by
      intro g
      rw [← List.countP_eq_length_filter, ← List.countP_eq_length_filter, List.countP_cons]
      simp only [unk, Bool.and_eq_true, decide_eq_true_eq, and_comm]
    simp only [e]
    rw [List.sum_map_add]
    congr 1
    by_cases hf : (R r).flag = .unknown
    · have hlt := h r (by simp) hf
      simp only [hf, and_true, cand, decide_true, if_true]
      have : ∀ m, (R r).gray < m → ((List.range m).map fun g => if (R r).gray = g then 1 else 0).sum = 1 := by
        intro m
        induction m with
        | zero => intro h; omega
        | succ m ih =>
          intro hm
          rw [List.range_succ, List.map_append, List.sum_append]
          by_cases e : (R r).gray = m
          · have : ((List.range m).map fun g => if (R r).gray = g then 1 else 0).sum = 0 := by
              rw [List.sum_eq_zero]
              intro x hx
              obtain ⟨g, hg, rfl⟩ := List.mem_map.1 hx
              have := List.mem_range.1 hg
              rw [if_neg (by omega)]
            rw [this]; simp [e]
          · rw [ih (by omega)]; simp [e]
      exact this n hlt
    · simp [hf, cand]

omit [DecidableEq ι] in
theorem mapM_of_forall₂ {β γ : Type} {f : β → Option γ} {xs : List β} {ys : List γ}
    (h : List.Forall₂ (fun x y => f x = some y) xs ys) : xs.mapM f = some ys := by
  induction h with
  | nil => rfl
  | cons h1 _ ih => rw [List.mapM_cons, h1, ih]; rfl

omit [DecidableEq ι] in
theorem readCells_eq {cells : Nat → Option ι} {L : List ι} (h : ∀ i < L.length, cells i = L[i]?) :
    readCells cells L.length = some L := by
  unfold readCells
  refine mapM_of_forall₂ (List.forall₂_iff_get.2 ⟨by simp, fun i h1 h2 => ?_⟩)
  have := h i h2
  simpa [h2] using this

omit [DecidableEq ι] in
/-- **Ordering**: in an array with room for all candidates, the candidates level by level. -/
theorem grayOrder_spec {s : RSt ι} {order : List ι} {msize : Nat}
    (hlev : ∀ g, s.lev g = (order.countP (unk s.R g) : Int))
    (hgr : ∀ r ∈ order, (s.R r).flag = .unknown → (s.R r).gray < 256)
    (hm : order.countP (cand s.R) ≤ msize) :
    grayOrder s order msize = some (byGray s.R order 256) := by
  have hlen := byGray_length hgr
  have hstart := startIndex_eq hlev
  have key : ∀ (rest t : List ι) (o : Ord ι), t ++ rest = order →
      (∀ g, o.pos g = ((byGray s.R order g).length : Int) + (t.countP (unk s.R g) : Int)) →
      (∀ g j, g < 256 → j < (t.filter (unk s.R g)).length →
        o.cells ((byGray s.R order g).length + j) = (t.filter (unk s.R g))[j]?) →
      ∃ o', rest.foldlM (place s.R msize) o = some o' ∧ ∀ g j, g < 256 → j < (order.filter (unk s.R g)).length →
        o'.cells ((byGray s.R order g).length + j) = (order.filter (unk s.R g))[j]? := by
    intro rest
    induction rest with
    | nil =>
      intro t o ht _ h2
      rw [List.append_nil] at ht; subst ht
      exact ⟨o, rfl, h2⟩
    | cons x xs ih =>
      intro t o ht h1 h2
      rw [List.foldlM_cons]
      have hxo : x ∈ order := by rw [← ht]; simp
      by_cases hf : (s.R x).flag = .unknown
      · have hxg := hgr x hxo hf
        have hpos := h1 (s.R x).gray
        -- the cell written
        have hcount : ∀ g, (t ++ [x]).countP (unk s.R g) = t.countP (unk s.R g) + if (s.R x).gray = g then 1 else 0 := by
          intro g
          rw [List.countP_append, List.countP_singleton]
          congr 1
          simp [unk, hf]
        have hle : ∀ g, (t ++ [x]).countP (unk s.R g) ≤ (order.filter (unk s.R g)).length := by
          intro g
          rw [← List.countP_eq_length_filter, ← ht, show t ++ x :: xs = (t ++ [x]) ++ xs by simp,
            List.countP_append (l₁ := t ++ [x])]
          omega
        have hblk : ∀ g, g < 256 → (byGray s.R order g).length + (order.filter (unk s.R g)).length ≤
            (byGray s.R order 256).length := by
          intro g hg
          obtain ⟨k, hk⟩ : ∃ k, 256 = g + 1 + k := ⟨255 - g, by omega⟩
          obtain ⟨u, hu⟩ := byGray_add s.R order (g + 1) k
          rw [hk, hu, byGray_succ, List.length_append, List.length_append]; omega
        have hmono : ∀ g g', g < g' → (byGray s.R order g).length + (order.filter (unk s.R g)).length ≤
            (byGray s.R order g').length := by
          intro g g' hg
          obtain ⟨k, hk⟩ : ∃ k, g' = g + 1 + k := ⟨g' - (g + 1), by omega⟩
          obtain ⟨u, hu⟩ := byGray_add s.R order (g + 1) k
          rw [hk, hu, byGray_succ, List.length_append, List.length_append]; omega
        have hi : 0 ≤ o.pos (s.R x).gray ∧ o.pos (s.R x).gray < (msize : Int) := by
          have a1 := hcount (s.R x).gray
          rw [if_pos rfl] at a1
          have a2 := hle (s.R x).gray
          have a3 := hblk _ hxg
          rw [hpos]; omega
        have hplace : place s.R msize o x = some
            { pos := update o.pos (s.R x).gray (o.pos (s.R x).gray + 1),
              cells := update o.cells (o.pos (s.R x).gray).toNat (some x) } := by
          unfold place; rw [if_pos hf]; simp only; rw [if_pos hi]
        rw [hplace]
        refine ih (t ++ [x]) _ (by rw [← ht]; simp) ?_ ?_
        · intro g
          rw [hcount g]
          by_cases e : (s.R x).gray = g
          · subst e; simp only [Function.update_self, if_true]; rw [hpos]; push_cast; omega
          · simp only [Function.update_of_ne (Ne.symm e), e, if_false]; rw [h1 g]; simp
        · intro g j hg hj
          have hpn : (o.pos (s.R x).gray).toNat = (byGray s.R order (s.R x).gray).length +
              (t.filter (unk s.R (s.R x).gray)).length := by
            rw [hpos, ← List.countP_eq_length_filter]; omega
          simp only
          rw [List.filter_append] at hj ⊢
          by_cases e : (byGray s.R order g).length + j = (o.pos (s.R x).gray).toNat
          · rw [e, Function.update_self]
            have hjl : j < (order.filter (unk s.R g)).length := by
              have := hle g
              rw [List.countP_eq_length_filter, List.filter_append] at this; omega
            have hxl : (t.filter (unk s.R (s.R x).gray)).length < (order.filter (unk s.R (s.R x).gray)).length := by
              have := hle (s.R x).gray
              rw [hcount, if_pos rfl, List.countP_eq_length_filter] at this; omega
            have hgx : g = (s.R x).gray := by
              rcases Nat.lt_trichotomy g (s.R x).gray with h | h | h
              · have := hmono g _ h; omega
              · exact h
              · have := hmono _ g h; omega
            subst hgx
            have hj' : j = (t.filter (unk s.R (s.R x).gray)).length := by omega
            rw [hj', List.getElem?_append_right (by omega)]
            simp [unk, hf]
          · rw [Function.update_of_ne e]
            by_cases hjt : j < (t.filter (unk s.R g)).length
            · rw [List.getElem?_append_left hjt]; exact h2 g j hg hjt
            · exfalso
              rw [List.length_append] at hj
              by_cases eg : (s.R x).gray = g
              · subst eg
                have : (List.filter (unk s.R (s.R x).gray) [x]).length ≤ 1 := by
                  have := List.length_filter_le (unk s.R (s.R x).gray) [x]; simpa using this
                omega
              · have : (List.filter (unk s.R g) [x]).length = 0 := by simp [unk, eg]
                omega
      · have hplace : place s.R msize o x = some o := by unfold place; rw [if_neg hf]
        rw [hplace]
        refine ih (t ++ [x]) o (by rw [← ht]; simp) ?_ ?_
        · intro g
          rw [h1 g, List.countP_append, List.countP_singleton]; simp [unk, hf]
        · intro g j hg hj
          have e : (t ++ [x]).filter (unk s.R g) = t.filter (unk s.R g) := by
            rw [List.filter_append]; simp [unk, hf]
          rw [e] at hj ⊢
          exact h2 g j hg hj
  obtain ⟨o, e1, h1⟩ := key order [] ⟨startIndex s.lev, fun _ => none⟩ (by simp) (fun g => by simp [hstart])
    (fun g j _ hj => by simp at hj)
  unfold grayOrder
  rw [e1]
  simp only
  rw [hstart, Int.toNat_natCast]
  refine readCells_eq fun i hi => ?_
  obtain ⟨g, j, hg, hj, rfl⟩ := byGray_index s.R order hi
  rw [h1 g j hg hj, byGray_get s.R order hg hj]

/-! ### What the ordered list is -/

omit [DecidableEq ι] in
theorem mem_byGray {R : RForest ι} {order : List ι} {n : Nat} {r : ι} :
    r ∈ byGray R order n ↔ r ∈ order ∧ (R r).flag = .unknown ∧ (R r).gray < n := by
  unfold byGray
  rw [List.mem_flatMap]
  constructor
  · rintro ⟨g, hg, hr⟩
    rw [List.mem_filter] at hr
    simp only [unk, Bool.and_eq_true, decide_eq_true_eq] at hr
    rw [List.mem_range] at hg
    exact ⟨hr.1, hr.2.1, by omega⟩
  · rintro ⟨h1, h2, h3⟩
    exact ⟨(R r).gray, List.mem_range.2 h3, List.mem_filter.2 ⟨h1, by simp [unk, h2]⟩⟩

omit [DecidableEq ι] in
theorem byGray_nodup {R : RForest ι} {order : List ι} (h : order.Nodup) : ∀ n, (byGray R order n).Nodup
  | 0 => by simp [byGray]
  | n + 1 => by
    rw [byGray_succ, List.nodup_append]
    refine ⟨byGray_nodup h n, h.filter _, fun a ha b hb => ?_⟩
    rintro rfl
    rw [mem_byGray] at ha
    rw [List.mem_filter] at hb
    simp only [unk, Bool.and_eq_true, decide_eq_true_eq] at hb
    omega

omit [DecidableEq ι] in
theorem byGray_sorted {R : RForest ι} {order : List ι} : ∀ n, (byGray R order n).Pairwise fun a b =>
    (R a).gray ≤ (R b).gray
  | 0 => by simp [byGray]
  | n + 1 => by
    rw [byGray_succ, List.pairwise_append]
    refine ⟨byGray_sorted n, ?_, fun a ha b hb => ?_⟩
    · refine List.Pairwise.imp_of_mem (R := fun _ _ => True) ?_ (List.pairwise_of_forall (fun _ _ => trivial))
      intro a b ha hb _
      rw [List.mem_filter] at ha hb
      simp only [unk, Bool.and_eq_true, decide_eq_true_eq] at ha hb
      omega
    · rw [mem_byGray] at ha
      rw [List.mem_filter] at hb
      simp only [unk, Bool.and_eq_true, decide_eq_true_eq] at hb
      omega

omit [DecidableEq ι] in
/-- Within a level the creation order is kept. -/
theorem byGray_stable {R : RForest ι} {order : List ι} {n g : Nat} (hg : g < n) :
    (byGray R order n).filter (fun r => (R r).gray = g) = order.filter (unk R g) := by
  have key : ∀ m, (byGray R order m).filter (fun r => (R r).gray = g) =
      if g < m then order.filter (unk R g) else [] := by
    intro m
    induction m with
    | zero => simp [byGray]
    | succ m ih =>
      rw [byGray_succ, List.filter_append, ih, List.filter_filter]
      have e : order.filter (fun r => decide ((R r).gray = g) && unk R m r) = if g = m then order.filter (unk R g) else [] := by
        by_cases hgm : g = m
        · subst hgm
          rw [if_pos rfl]
          refine List.filter_congr fun r _ => ?_
          simp only [unk]
          by_cases h1 : (R r).gray = g <;> simp [h1]
        · rw [if_neg hgm, List.filter_eq_nil_iff]
          intro r _
          simp only [unk, Bool.and_eq_true, decide_eq_true_eq, not_and]
          intro h1 _ h2
          exact hgm (h1.symm.trans h2)
      rw [e]
      by_cases h1 : g < m
      · rw [if_pos h1, if_neg (by omega), if_pos (by omega)]; simp
      · by_cases h2 : g = m
        · rw [if_neg h1, if_pos h2, if_pos (by omega)]; simp
        · rw [if_neg h1, if_neg h2, if_neg (by omega)]; rfl
  rw [key n, if_pos hg]

theorem reserve_ge (msize total exceed : Nat) : total ≤ (reserve msize total exceed).1 := by
  unfold reserve
  split
  · split <;> simp only <;> omega
  · exact Nat.le_refl _

end Verif.Recog
