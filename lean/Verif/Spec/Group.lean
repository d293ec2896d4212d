import Mathlib.Logic.Relation
import Mathlib.Data.Rat.Defs
import Mathlib.Data.List.Perm.Basic
import Mathlib.Data.List.Nodup
import Verif.Spec.Stable

/-!
# Specification: groups of near-equal nested regions

Nothing here refers to the model of the code.
-/

namespace Verif.Spec

open Relation (TransGen)

variable {α ι : Type}

/-- `a` is a proper ancestor of `r`. -/
def RegionTree.Above (T : RegionTree α ι) (r a : ι) : Prop := TransGen (fun x y => T.parent x = some y) r a

/-- `a` is at most `maxPoint` large and larger than `r` by at most the ratio `dup`. -/
def Near (T : RegionTree α ι) (maxPoint : Int) (dup : ℚ) (rnd : ℚ → ℚ) (r a : ι) : Prop :=
  (T.size a : Int) ≤ maxPoint ∧ rnd ((((T.size a : Int) - (T.size r : Int) : Int) : ℚ) / ((T.size r : Int) : ℚ)) ≤ dup

open Classical in
/-- Dividing a list of candidates into groups, each with the member that is kept.  The first candidate `r`
opens a group: it takes the later candidates that contain `r` and are near `r`; the middle one is kept; if
there is more than one, later candidates containing all of these and near the middle one are taken too.  The
rest is divided in the same way. -/
inductive Grouping (above near : ι → ι → Prop) : List ι → List (List ι × ι) → Prop
  | nil : Grouping above near [] []
  | cons {r m e : ι} {C A B : List ι} {gs : List (List ι × ι)}
      (hA : A = r :: C.filter fun a => above r a ∧ near r a)
      (hm : A[A.length / 2]? = some m) (he : A.getLast? = some e)
      (hB : B = if A.length = 1 then [] else C.filter fun a => a ∉ A ∧ above e a ∧ near m a)
      (h : Grouping above near (C.filter fun a => a ∉ A ++ B) gs) :
      Grouping above near (r :: C) ((A ++ B, m) :: gs)

/-- The second rule with any way of deciding the conditions. -/
theorem Grouping.mk {above near : ι → ι → Prop} {r m e : ι} {C A B : List ι} {gs : List (List ι × ι)}
    {pA pB pC : ι → Bool} (hpA : ∀ a, pA a = true ↔ above r a ∧ near r a)
    (hpB : ∀ a, pB a = true ↔ a ∉ A ∧ above e a ∧ near m a) (hpC : ∀ a, pC a = true ↔ a ∉ A ++ B)
    (hA : A = r :: C.filter pA) (hm : A[A.length / 2]? = some m) (he : A.getLast? = some e)
    (hB : B = if A.length = 1 then [] else C.filter pB) (h : Grouping above near (C.filter pC) gs) :
    Grouping above near (r :: C) ((A ++ B, m) :: gs) := by
  classical
  refine .cons (A := A) (B := B) ?_ hm he ?_ ?_
  · rw [hA]; congr 1
    refine List.filter_congr fun a _ => ?_
    rw [Bool.eq_iff_iff, hpA, decide_eq_true_eq]
  · rw [hB]; congr 1
    refine List.filter_congr fun a _ => ?_
    rw [Bool.eq_iff_iff, hpB, decide_eq_true_eq]
  · have : C.filter pC = C.filter fun a => decide (a ∉ A ++ B) := by
      refine List.filter_congr fun a _ => ?_
      rw [Bool.eq_iff_iff, hpC, decide_eq_true_eq]
    rwa [this] at h

/-- The members kept. -/
def kept (gs : List (List ι × ι)) : List ι := gs.map Prod.snd

theorem Grouping.cons_facts {r m : ι} {C A B : List ι} (hnd : (r :: C).Nodup)
    {pA : ι → Bool} (hA : A = r :: C.filter pA)
    (hm : A[A.length / 2]? = some m) (hB : ∀ x ∈ B, x ∈ C ∧ x ∉ A) (hBn : B.Nodup) :
    (A ++ B).Nodup ∧ (∀ x ∈ A ++ B, x ∈ r :: C) ∧ m ∈ A ∧ r ∈ A := by
  have hrC : r ∉ C := (List.nodup_cons.1 hnd).1
  have hC : C.Nodup := (List.nodup_cons.1 hnd).2
  have hAn : A.Nodup := by
    rw [hA, List.nodup_cons]
    exact ⟨fun h => hrC (List.mem_filter.1 h).1, hC.filter _⟩
  refine ⟨?_, ?_, List.mem_of_getElem? hm, by rw [hA]; simp⟩
  · rw [List.nodup_append]
    exact ⟨hAn, hBn, fun a ha b hb => by rintro rfl; exact (hB a hb).2 ha⟩
  · intro x hx
    rcases List.mem_append.1 hx with hx | hx
    · rw [hA, List.mem_cons, List.mem_filter] at hx
      rcases hx with rfl | hx
      · simp
      · exact List.mem_cons_of_mem _ hx.1
    · exact List.mem_cons_of_mem _ (hB x hx).1

/-- Every candidate is in exactly one group. -/
theorem Grouping.perm {above near : ι → ι → Prop} {C : List ι} {gs : List (List ι × ι)}
    (h : Grouping above near C gs) : C.Nodup → (gs.flatMap Prod.fst).Perm C := by
  classical
  induction h with
  | nil => intro _; simp
  | @cons r m e C A B gs hA hm he hB hrest ih =>
    intro hnd
    have hC : C.Nodup := (List.nodup_cons.1 hnd).2
    have hB' : ∀ x ∈ B, x ∈ C ∧ x ∉ A := by
      intro x hx
      rw [hB] at hx
      split at hx
      · simp at hx
      · rw [List.mem_filter] at hx; exact ⟨hx.1, (of_decide_eq_true hx.2).1⟩
    have hBn : B.Nodup := by
      rw [hB]; split
      · simp
      · exact hC.filter _
    obtain ⟨h1, h2, _, h4⟩ := Grouping.cons_facts hnd hA hm hB' hBn
    have hp := ih (hC.filter _)
    have h5 : (r :: C).filter (fun a => a ∉ A ++ B) = C.filter (fun a => a ∉ A ++ B) := by
      rw [List.filter_cons_of_neg]; simp [h4]
    have h6 : (A ++ B).Perm ((r :: C).filter fun a => a ∈ A ++ B) := by
      refine (List.perm_ext_iff_of_nodup h1 (hnd.filter _)).2 fun x => ?_
      rw [List.mem_filter]
      constructor
      · intro hx; exact ⟨h2 x hx, decide_eq_true hx⟩
      · intro hx; exact of_decide_eq_true hx.2
    rw [List.flatMap_cons]
    refine (List.Perm.append h6 hp).trans ?_
    rw [← h5]
    have := List.filter_append_perm (fun a => decide (a ∈ A ++ B)) (r :: C)
    simpa using this

/-- The kept member of a group is in the group. -/
theorem Grouping.mem {above near : ι → ι → Prop} {C : List ι} {gs : List (List ι × ι)}
    (h : Grouping above near C gs) : ∀ x ∈ gs, x.2 ∈ x.1 := by
  induction h with
  | nil => simp
  | cons hA hm he hB _ ih =>
    intro x hx
    rcases List.mem_cons.1 hx with rfl | hx
    · exact List.mem_append_left _ (List.mem_of_getElem? hm)
    · exact ih x hx

/-- No region is kept twice. -/
theorem Grouping.kept_nodup {above near : ι → ι → Prop} {C : List ι} {gs : List (List ι × ι)}
    (h : Grouping above near C gs) (hnd : C.Nodup) : (kept gs).Nodup := by
  have hp := (h.perm hnd).nodup_iff.2 hnd
  have hm := h.mem
  clear h
  induction gs with
  | nil => simp [kept]
  | cons x gs ih =>
    rw [List.flatMap_cons, List.nodup_append] at hp
    have : kept (x :: gs) = x.2 :: kept gs := rfl
    rw [this, List.nodup_cons]
    refine ⟨fun hx => ?_, ih hp.2.1 (fun y hy => hm y (by simp [hy]))⟩
    obtain ⟨y, hy, e⟩ := List.mem_map.1 hx
    exact hp.2.2 x.2 (hm x (by simp)) x.2 (List.mem_flatMap.2 ⟨y, hy, by rw [← e]; exact hm y (by simp [hy])⟩) rfl

theorem Grouping.kept_sub {above near : ι → ι → Prop} {C : List ι} {gs : List (List ι × ι)}
    (h : Grouping above near C gs) (hnd : C.Nodup) : ∀ x ∈ kept gs, x ∈ C := by
  intro x hx
  obtain ⟨y, hy, rfl⟩ := List.mem_map.1 hx
  exact (h.perm hnd).mem_iff.1 (List.mem_flatMap.2 ⟨y, hy, h.mem y hy⟩)

/-- The members of a group are nested, in the order listed, if the candidates are listed such that no region
comes after one containing it. -/
theorem Grouping.nested {above near : ι → ι → Prop} (htr : ∀ a b c, above a b → above b c → above a c)
    (htot : ∀ r a b, above r a → above r b → a = b ∨ above a b ∨ above b a)
    {C : List ι} {gs : List (List ι × ι)}
    (h : Grouping above near C gs) : C.Nodup → C.Pairwise (fun x y => ¬ above y x) →
    ∀ x ∈ gs, x.1.Pairwise above := by
  classical
  have chain : ∀ (r : ι) (l : List ι), (∀ a ∈ l, above r a) → l.Nodup → l.Pairwise (fun x y => ¬ above y x) →
      l.Pairwise above := by
    intro r l hl hn hp
    induction l with
    | nil => simp
    | cons x xs ih =>
      rw [List.pairwise_cons] at hp ⊢
      rw [List.nodup_cons] at hn
      refine ⟨fun y hy => ?_, ih (fun a ha => hl a (by simp [ha])) hn.2 hp.2⟩
      rcases htot r x y (hl x (by simp)) (hl y (by simp [hy])) with e | e | e
      · subst e; exact absurd hy hn.1
      · exact e
      · exact absurd e (hp.1 y hy)
  induction h with
  | nil => intro _ _ x hx; simp at hx
  | @cons r m e C A B gs hA hm he hB hrest ih =>
    intro hnd hp x hx
    have hC := List.nodup_cons.1 hnd
    have hpC := List.pairwise_cons.1 hp
    rcases List.mem_cons.1 hx with rfl | hx
    · simp only
      have hA' : A.Pairwise above := by
        rw [hA, List.pairwise_cons]
        refine ⟨fun a ha => (of_decide_eq_true (List.mem_filter.1 ha).2).1, ?_⟩
        refine chain r _ (fun a ha => (of_decide_eq_true (List.mem_filter.1 ha).2).1) (hC.2.filter _) (hpC.2.filter _)
      have hBe : ∀ b ∈ B, above e b := by
        intro b hb
        rw [hB] at hb
        split at hb
        · simp at hb
        · exact (of_decide_eq_true (List.mem_filter.1 hb).2).2.1
      have hB' : B.Pairwise above := by
        refine chain e B hBe ?_ ?_
        · rw [hB]; split
          · simp
          · exact hC.2.filter _
        · rw [hB]; split
          · simp
          · exact hpC.2.filter _
      rw [List.pairwise_append]
      refine ⟨hA', hB', fun a ha b hb => ?_⟩
      obtain ⟨ys, hys⟩ : ∃ ys, A = ys ++ [e] := by
        obtain ⟨ys, y, hy⟩ := List.eq_nil_or_concat A |>.resolve_left (by rw [hA]; simp)
        rw [hy] at he
        rw [List.concat_eq_append, List.getLast?_append] at he
        simp at he
        exact ⟨ys, by rw [hy, he, List.concat_eq_append]⟩
      rw [hys, List.mem_append, List.mem_singleton] at ha
      rcases ha with ha | rfl
      · rw [hys, List.pairwise_append] at hA'
        exact htr _ _ _ (hA'.2.2 a ha e (by simp)) (hBe b hb)
      · exact hBe b hb
    · exact ih (hC.2.filter _) (hpC.2.filter _) x hx

/-- Which member is kept: the group is a middle part `A` around the kept member, near the first, and further
members near the kept one; `A` splits evenly around the kept member. -/
theorem Grouping.middle {above near : ι → ι → Prop} {C : List ι} {gs : List (List ι × ι)}
    (h : Grouping above near C gs) : ∀ x ∈ gs, ∃ r A B, x.1 = r :: A ++ B ∧ (r :: A)[(r :: A).length / 2]? = some x.2 ∧
      (∀ a ∈ A, above r a ∧ near r a) ∧ (∀ b ∈ B, near x.2 b) ∧ (A = [] → B = []) := by
  classical
  induction h with
  | nil => simp
  | @cons r m e C A B gs hA hm he hB _ ih =>
    intro x hx
    rcases List.mem_cons.1 hx with rfl | hx
    · rw [hA] at hm
      refine ⟨r, _, B, by rw [hA], hm, fun a ha => of_decide_eq_true (List.mem_filter.1 ha).2, fun b hb => ?_, fun e => ?_⟩
      · rw [hB] at hb
        split at hb
        · simp at hb
        · exact (of_decide_eq_true (List.mem_filter.1 hb).2).2.2
      · rw [hB, if_pos (by rw [hA, e]; rfl)]
    · exact ih x hx

end Verif.Spec
