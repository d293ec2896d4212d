import Verif.Spec.Group
import Verif.Spec.Same

/-!
# Proof: when the order of the candidates does not matter

If no region can be taken into the groups of two unrelated candidates, the groups do not depend on the order in
which the candidates are listed, as long as no region comes after one containing it.
-/

namespace Verif.Spec

variable {ι : Type} {above near : ι → ι → Prop}

/-- `reach r a`: the group opened by `r` may take `a`; groups of unrelated regions do not compete. -/
structure Separate (above near reach : ι → ι → Prop) : Prop where
  first : ∀ r a, above r a → near r a → reach r a
  second : ∀ r m a, above r m → near r m → above r a → near m a → reach r a
  apart : ∀ r s a, r ≠ s → ¬ above r s → ¬ above s r → reach r a → reach s a → False
  trans : ∀ a b c, above a b → above b c → above a c
  total : ∀ r a b, above r a → above r b → a = b ∨ above a b ∨ above b a
  irrefl : ∀ a, ¬ above a a

variable {reach : ι → ι → Prop}

/-- All that one step of the grouping says. -/
theorem Grouping.inv {r : ι} {C : List ι} {gs : List (List ι × ι)} (h : Grouping above near (r :: C) gs) :
    ∃ m e A B gs', gs = (A ++ B, m) :: gs' ∧ (open Classical in A = r :: C.filter fun a => above r a ∧ near r a) ∧
      A[A.length / 2]? = some m ∧ A.getLast? = some e ∧
      (open Classical in B = if A.length = 1 then [] else C.filter fun a => a ∉ A ∧ above e a ∧ near m a) ∧
      Grouping above near (open Classical in C.filter fun a => a ∉ A ++ B) gs' := by
  cases h with
  | cons hA hm he hB h => exact ⟨_, _, _, _, _, rfl, hA, hm, he, hB, h⟩

/-- Members of the group of `r` are within reach. -/
theorem group_reach (hS : Separate above near reach) {r m e : ι} {C A B : List ι}
    (hA : open Classical in A = r :: C.filter fun a => above r a ∧ near r a) (hm : A[A.length / 2]? = some m)
    (he : A.getLast? = some e)
    (hB : open Classical in B = if A.length = 1 then [] else C.filter fun a => a ∉ A ∧ above e a ∧ near m a) :
    (m = r ∨ above r m ∧ near r m) ∧ (e = r ∨ above r e) ∧ (∀ a ∈ A ++ B, a = r ∨ above r a ∧ reach r a) ∧
      (A.length ≠ 1 → ∀ a, above e a → near m a → above r a ∧ reach r a) := by
  classical
  have hmem : ∀ a ∈ A, a = r ∨ above r a ∧ near r a := by
    intro a ha
    rw [hA, List.mem_cons, List.mem_filter] at ha
    rcases ha with e | e
    · exact .inl e
    · exact .inr (of_decide_eq_true e.2)
  have hm' := hmem m (List.mem_of_getElem? hm)
  have he' := hmem e (List.mem_of_mem_getLast? he)
  have hB2 : A.length ≠ 1 → ∀ a, above e a → near m a → above r a ∧ reach r a := by
    intro _ a h1 h2
    have h3 : above r a := by
      rcases he' with e' | e'
      · rw [e'] at h1; exact h1
      · exact hS.trans _ _ _ e'.1 h1
    refine ⟨h3, ?_⟩
    rcases hm' with e' | e'
    · rw [e'] at h2; exact hS.first r a h3 h2
    · exact hS.second r m a e'.1 e'.2 h3 h2
  refine ⟨hm', he'.imp_right And.left, ?_, hB2⟩
  intro a ha
  rcases List.mem_append.1 ha with ha | ha
  · exact (hmem a ha).imp_right fun h => ⟨h.1, hS.first r a h.1 h.2⟩
  · rw [hB] at ha
    split at ha
    · simp at ha
    · rename_i hl
      obtain ⟨_, h1, h2⟩ := of_decide_eq_true (List.mem_filter.1 ha).2
      exact .inr (hB2 hl a h1 h2)

/-- A candidate unrelated to those before it may come first. -/
theorem Grouping.front (hS : Separate above near reach) {r : ι} : ∀ (k : Nat) (X Y : List ι) (gs : List (List ι × ι)),
    X.length = k → (X ++ r :: Y).Nodup → (∀ x ∈ X, ¬ above x r ∧ ¬ above r x) → Grouping above near (X ++ r :: Y) gs →
    ∃ gs', Grouping above near (r :: (X ++ Y)) gs' ∧ gs'.Perm gs := by
  classical
  intro k
  induction k using Nat.strong_induction_on with
  | _ k ih =>
    intro X Y gs hk hnd hX h
    cases X with
    | nil => exact ⟨gs, h, List.Perm.refl _⟩
    | cons x X =>
      rw [List.cons_append] at h
      obtain ⟨m, e, A, B, gs1, rfl, hA, hm, he, hB, hrest⟩ := Grouping.inv h
      have hx := hX x (by simp)
      have hxr : x ≠ r := by
        rintro rfl
        have := (List.nodup_cons.1 hnd).1
        simp at this
      have hxn : x ∉ X ++ r :: Y := (List.nodup_cons.1 hnd).1
      obtain ⟨hm1, he1, hreach, hBr⟩ := group_reach hS hA hm he hB
      have hr : r ∉ A ++ B := by
        intro hr
        rcases hreach r hr with e | e
        · exact hxr e.symm
        · exact hx.1 e.1
      rw [List.filter_append, List.filter_cons_of_pos (by simpa using hr)] at hrest
      have hnd2 : (X ++ r :: Y).Nodup := (List.nodup_cons.1 hnd).2
      have hnd3 : ((X.filter fun a => a ∉ A ++ B) ++ r :: Y.filter fun a => a ∉ A ++ B).Nodup := by
        have := hnd2.filter (fun a => decide (a ∉ A ++ B))
        rwa [List.filter_append, List.filter_cons_of_pos (by simpa using hr)] at this
      have hlen : (X.filter fun a => decide (a ∉ A ++ B)).length < k := by
        have := List.length_filter_le (fun a => decide (a ∉ A ++ B)) X
        simp at hk
        omega
      obtain ⟨gs2, h2, hp2⟩ := ih _ hlen _ _ gs1 rfl hnd3
        (fun y hy => hX y (by simp [(List.mem_filter.1 hy).1])) hrest
      obtain ⟨m2, e2, A2, B2, gs3, rfl, hA2, hm2, he2, hB2, hrest2⟩ := Grouping.inv h2
      obtain ⟨hm3, he3, hreach2, hBr2⟩ := group_reach hS hA2 hm2 he2 hB2
      -- what the group of `r` wants is not in the group of `x`, and the other way round
      have hsep : ∀ a, above r a ∧ reach r a → a ∉ A ++ B := by
        intro a ha hin
        rcases hreach a hin with e | e
        · rw [e] at ha; exact hx.2 ha.1
        · exact hS.apart r x a (Ne.symm hxr) hx.2 hx.1 ha.2 e.2
      have hsep2 : ∀ a, above x a ∧ reach x a → a ∉ A2 ++ B2 := by
        intro a ha hin
        rcases hreach2 a hin with e | e
        · rw [e] at ha; exact hx.1 ha.1
        · exact hS.apart r x a (Ne.symm hxr) hx.2 hx.1 e.2 ha.2
      have hxA2 : x ∉ A2 ++ B2 := by
        intro hin
        rcases hreach2 x hin with e | e
        · exact hxr e
        · exact hx.2 e.1
      rw [← List.filter_append] at hA2 hB2 hrest2
      have eA2 : A2 = r :: (x :: (X ++ Y)).filter fun a => above r a ∧ near r a := by
        rw [hA2, List.filter_cons_of_neg (by simp [hx.2]), List.filter_filter]
        congr 1
        refine List.filter_congr fun a _ => ?_
        rw [Bool.eq_iff_iff]
        simp only [Bool.and_eq_true, decide_eq_true_eq]
        exact ⟨fun h => h.1, fun h => ⟨h, hsep a ⟨h.1, hS.first _ _ h.1 h.2⟩⟩⟩
      have eB2 : B2 = if A2.length = 1 then [] else (x :: (X ++ Y)).filter fun a => a ∉ A2 ∧ above e2 a ∧ near m2 a := by
        rw [hB2]
        split
        · rfl
        · rename_i hl
          have hex : ¬ above e2 x := by
            intro hc
            rcases he3 with e | e
            · rw [e] at hc; exact hx.2 hc
            · exact hx.2 (hS.trans _ _ _ e hc)
          rw [List.filter_cons_of_neg (by simp [hex]), List.filter_filter]
          refine List.filter_congr fun a _ => ?_
          rw [Bool.eq_iff_iff]
          simp only [Bool.and_eq_true, decide_eq_true_eq]
          exact ⟨fun h => h.1, fun h => ⟨h, hsep a (hBr2 hl a h.2.1 h.2.2)⟩⟩
      have eA : A = x :: ((X ++ Y).filter fun a => a ∉ A2 ++ B2).filter fun a => above x a ∧ near x a := by
        rw [hA, List.filter_append, List.filter_cons_of_neg (by simp [hx.1]), ← List.filter_append, List.filter_filter]
        congr 1
        refine List.filter_congr fun a _ => ?_
        rw [Bool.eq_iff_iff]
        simp only [Bool.and_eq_true, decide_eq_true_eq]
        exact ⟨fun h => ⟨h, hsep2 a ⟨h.1, hS.first _ _ h.1 h.2⟩⟩, fun h => h.1⟩
      have eB : B = if A.length = 1 then [] else
          ((X ++ Y).filter fun a => a ∉ A2 ++ B2).filter fun a => a ∉ A ∧ above e a ∧ near m a := by
        rw [hB]
        split
        · rfl
        · rename_i hl
          have her : ¬ above e r := by
            intro hc
            rcases he1 with e' | e'
            · rw [e'] at hc; exact hx.1 hc
            · exact hx.1 (hS.trans _ _ _ e' hc)
          rw [List.filter_append, List.filter_cons_of_neg (by simp [her]), ← List.filter_append, List.filter_filter]
          refine List.filter_congr fun a _ => ?_
          rw [Bool.eq_iff_iff]
          simp only [Bool.and_eq_true, decide_eq_true_eq]
          exact ⟨fun h => ⟨h, hsep2 a (hBr hl a h.2.1 h.2.2)⟩, fun h => h.1⟩
      have erest : (((X ++ Y).filter fun a => a ∉ A2 ++ B2).filter fun a => a ∉ A ++ B) =
          ((X ++ Y).filter fun a => a ∉ A ++ B).filter fun a => a ∉ A2 ++ B2 := by
        rw [List.filter_filter, List.filter_filter]
        refine List.filter_congr fun a _ => ?_
        rw [Bool.and_comm]
      refine ⟨(A2 ++ B2, m2) :: (A ++ B, m) :: gs3, ?_, ?_⟩
      · refine .cons eA2 hm2 he2 eB2 ?_
        rw [List.cons_append, List.filter_cons_of_pos (by simpa using hxA2)]
        refine .cons eA hm he eB ?_
        rw [erest]
        exact hrest2
      · exact (List.Perm.swap _ _ _).trans (List.Perm.cons _ hp2)

/-- Two listings of a chain that agree with inclusion are the same. -/
theorem chain_eq (hirr : ∀ a, ¬ above a a) (htr : ∀ a b c, above a b → above b c → above a c) :
    ∀ (l l' : List ι), l.Pairwise above → l'.Pairwise above → l.Perm l' → l = l'
  | [], l', _, _, hp => (List.nil_perm.1 hp).symm
  | x :: l, l', h, h', hp => by
    cases l' with
    | nil => exact absurd hp (by simp)
    | cons y l' =>
      have h1 := List.pairwise_cons.1 h
      have h2 := List.pairwise_cons.1 h'
      have : x = y := by
        by_contra hne
        have hx : x ∈ y :: l' := hp.mem_iff.1 (by simp)
        have hy : y ∈ x :: l := hp.mem_iff.2 (by simp)
        have hx' := (List.mem_cons.1 hx).resolve_left hne
        have hy' := (List.mem_cons.1 hy).resolve_left (Ne.symm hne)
        exact hirr x (htr _ _ _ (h1.1 y hy') (h2.1 x hx'))
      subst this
      rw [chain_eq hirr htr l l' h1.2 h2.2 (List.Perm.cons_inv hp)]

/-- **Order does not matter.** -/
theorem Grouping.order_free (hS : Separate above near reach) : ∀ (k : Nat) (C C' : List ι) (gs gs' : List (List ι × ι)),
    C.length = k → C.Nodup → C.Perm C' → C.Pairwise (fun x y => ¬ above y x) → C'.Pairwise (fun x y => ¬ above y x) →
    Grouping above near C gs → Grouping above near C' gs' → gs.Perm gs' := by
  classical
  intro k
  induction k using Nat.strong_induction_on with
  | _ k ih =>
    intro C C' gs gs' hk hnd hp ho ho' h h'
    cases C with
    | nil =>
      have := List.nil_perm.1 hp
      subst this
      cases h; cases h'
      exact List.Perm.refl _
    | cons r C =>
      have hnd' := hp.nodup_iff.1 hnd
      obtain ⟨X, Y, rfl⟩ := List.append_of_mem (hp.mem_iff.1 (List.mem_cons_self (a := r) (l := C)))
      have hpo := List.pairwise_cons.1 ho
      have hpo' := List.pairwise_append.1 ho'
      have hX : ∀ x ∈ X, ¬ above x r ∧ ¬ above r x := by
        intro x hx
        refine ⟨?_, hpo'.2.2 x hx r (by simp)⟩
        have hxC : x ∈ r :: C := hp.mem_iff.2 (by simp [hx])
        rcases List.mem_cons.1 hxC with e | e
        · subst e; exact hS.irrefl _
        · exact hpo.1 x e
      obtain ⟨gs2, h2, hp2⟩ := Grouping.front hS _ X Y gs' rfl hnd' hX h'
      refine List.Perm.trans ?_ hp2
      have hpC : C.Perm (X ++ Y) := by
        have : (r :: C).Perm (r :: (X ++ Y)) := hp.trans List.perm_middle
        exact List.Perm.cons_inv this
      have hoXY : (X ++ Y).Pairwise fun x y => ¬ above y x := by
        rw [List.pairwise_append]
        exact ⟨hpo'.1, (List.pairwise_cons.1 hpo'.2.1).2, fun x hx y hy => hpo'.2.2 x hx y (by simp [hy])⟩
      have hndC := (List.nodup_cons.1 hnd).2
      have hndXY := hpC.nodup_iff.1 hndC
      obtain ⟨m, e, A, B, g1, rfl, hA, hm, he, hB, hrest⟩ := Grouping.inv h
      obtain ⟨m2, e2, A2, B2, g2, rfl, hA2, hm2, he2, hB2, hrest2⟩ := Grouping.inv h2
      -- chains are listed in the same way
      have chain : ∀ (q : ι) (l : List ι), (∀ a ∈ l, above q a) → l.Nodup → l.Pairwise (fun x y => ¬ above y x) →
          l.Pairwise above := by
        intro q l hl hn hp
        induction l with
        | nil => simp
        | cons x xs ih =>
          rw [List.pairwise_cons] at hp ⊢
          rw [List.nodup_cons] at hn
          refine ⟨fun y hy => ?_, ih (fun a ha => hl a (by simp [ha])) hn.2 hp.2⟩
          rcases hS.total q x y (hl x (by simp)) (hl y (by simp [hy])) with e | e | e
          · subst e; exact absurd hy hn.1
          · exact e
          · exact absurd e (hp.1 y hy)
      have same : ∀ (q : ι) (P : ι → Bool), (∀ a, P a = true → above q a) → C.filter P = (X ++ Y).filter P := by
        intro q P hP
        refine chain_eq hS.irrefl hS.trans _ _ ?_ ?_ (hpC.filter P)
        · exact chain q _ (fun a ha => hP a (List.mem_filter.1 ha).2) (hndC.filter _) (hpo.2.filter _)
        · exact chain q _ (fun a ha => hP a (List.mem_filter.1 ha).2) (hndXY.filter _) (hoXY.filter _)
      have eA : A = A2 := by
        rw [hA, hA2, same r _ (fun a ha => (of_decide_eq_true ha).1)]
      subst eA
      obtain rfl : m = m2 := Option.some.inj (hm.symm.trans hm2)
      obtain rfl : e = e2 := Option.some.inj (he.symm.trans he2)
      have eB : B = B2 := by
        rw [hB, hB2]
        split
        · rfl
        · exact same e _ (fun a ha => (of_decide_eq_true ha).2.1)
      subst eB
      refine List.Perm.cons _ ?_
      have hlt : (C.filter fun a => decide (a ∉ A ++ B)).length < k := by
        have := List.length_filter_le (fun a => decide (a ∉ A ++ B)) C
        simp at hk
        omega
      exact ih _ hlt _ _ _ _ rfl (hndC.filter _) (hpC.filter _) (hpo.2.filter _) (hoXY.filter _) hrest hrest2

/-- Grouping of renamed candidates. -/
theorem Grouping.map {κ : Type} {above' near' : κ → κ → Prop} {f : ι → κ} {P : ι → Prop}
    (hinj : ∀ a b, P a → P b → f a = f b → a = b) (hab : ∀ a b, P a → P b → (above' (f a) (f b) ↔ above a b))
    (hnr : ∀ a b, P a → P b → (near' (f a) (f b) ↔ near a b)) {C : List ι} {gs : List (List ι × ι)}
    (h : Grouping above near C gs) :
    (∀ a ∈ C, P a) → Grouping above' near' (C.map f) (gs.map fun g => (g.1.map f, f g.2)) := by
  classical
  induction h with
  | nil => intro _; exact .nil
  | @cons r m e C A B gs hA hm he hB hrest ih =>
    intro hP
    have hPr := hP r (by simp)
    have hPC : ∀ a ∈ C, P a := fun a ha => hP a (by simp [ha])
    have hPA : ∀ a ∈ A, P a := by
      intro a ha
      rw [hA, List.mem_cons, List.mem_filter] at ha
      rcases ha with e | e
      · rw [e]; exact hPr
      · exact hPC a e.1
    have hPB : ∀ a ∈ B, P a := by
      intro a ha
      rw [hB] at ha
      split at ha
      · simp at ha
      · exact hPC a (List.mem_filter.1 ha).1
    have hPm := hPA m (List.mem_of_getElem? hm)
    have hPe := hPA e (List.mem_of_mem_getLast? he)
    have hmemA : ∀ l : List ι, (∀ a ∈ l, P a) → ∀ a, P a → (f a ∈ l.map f ↔ a ∈ l) := by
      intro l hl a ha
      rw [List.mem_map]
      constructor
      · rintro ⟨b, hb, e⟩; rw [← hinj b a (hl b hb) ha e]; exact hb
      · intro h; exact ⟨a, h, rfl⟩
    have hfil : ∀ (p : ι → Bool) (q : κ → Bool), (∀ a ∈ C, q (f a) = p a) → (C.map f).filter q = (C.filter p).map f := by
      intro p q hpq
      rw [List.filter_map]
      congr 1
      exact List.filter_congr fun a ha => hpq a ha
    simp only [List.map_cons, List.map_append]
    refine .cons (A := A.map f) (B := B.map f) (e := f e) ?_ ?_ ?_ ?_ ?_
    · rw [hA, List.map_cons, hfil (fun a => decide (above r a ∧ near r a))]
      intro a ha
      rw [decide_eq_decide, hab r a hPr (hPC a ha), hnr r a hPr (hPC a ha)]
    · rw [List.length_map, List.getElem?_map, hm]; rfl
    · rw [List.getLast?_map, he]; rfl
    · rw [List.length_map]
      by_cases hl : A.length = 1
      · rw [if_pos hl]
        rw [if_pos hl] at hB
        rw [hB]; rfl
      · rw [if_neg hl]
        rw [if_neg hl] at hB
        rw [hfil (fun a => decide (a ∉ A ∧ above e a ∧ near m a)), ← hB]
        intro a ha
        rw [decide_eq_decide, hmemA A hPA a (hPC a ha), hab e a hPe (hPC a ha), hnr m a hPm (hPC a ha)]
    · have := ih (fun a ha => hPC a (List.mem_filter.1 ha).1)
      rw [← List.map_append, hfil (fun a => decide (a ∉ A ++ B))]
      · exact this
      · intro a ha
        rw [decide_eq_decide, hmemA (A ++ B) (by
          intro b hb
          rcases List.mem_append.1 hb with hb | hb
          · exact hPA b hb
          · exact hPB b hb) a (hPC a ha)]

end Verif.Spec
