import Verif.Proof.VlFeatForest

/-!
# The VLFeat detector: all pixels are joined
-/

namespace Verif.VlFeat

open Verif.Spec (LConn)
open Relation (ReflTransGen)
open scoped Classical

variable {nel : Nat} {nb : Nat → List Nat} {g : Nat → Nat} {P : Finset Nat} {A : Nat → Nat → Prop} {rt d : Nat → Nat} {s s' : FS} {junk : Int}

theorem Inv.joins_lt (h : Inv nel nb g P A rt d s) {i : Nat} (hi : i ∈ P) : s.njoins < nel := by
  have h1 : P.card ≤ nel := by
    have := Finset.card_le_card (s := P) (t := Finset.range nel) fun x hx => Finset.mem_range.2 (h.sub x hx)
    rwa [Finset.card_range] at this
  have hm : rt i ∈ P.filter fun x => rt x = x := Finset.mem_filter.2 ⟨h.rt_mem hi, h.rt_rt hi⟩
  have h2 : 0 < (P.filter fun x => rt x = x).card := Finset.card_pos.2 ⟨_, hm⟩
  have := h.joins
  omega

/-- `i` is the brightest pixel of the forest; the darker pixels are all in the forest, with their edges. -/
structure Front (nel : Nat) (nb : Nat → List Nat) (g : Nat → Nat) (P : Finset Nat) (A : Nat → Nat → Prop) (i : Nat) : Prop where
  mem : i ∈ P
  max : ∀ x ∈ P, g x ≤ g i
  low : ∀ x < nel, g x < g i → x ∈ P
  act : ∀ x ∈ P, ∀ y ∈ P, x ≠ i → y ≠ i → adj nel nb x y → A x y

/-- A tree with a darker root is a component. -/
theorem Inv.closed (h : Inv nel nb g P A rt d s) {i : Nat} (hF : Front nel nb g P A i) {c : Nat} (hc : c ∈ P) (rc : rt c = c) (hg : g c < g i) :
    ∀ p ∈ P, (rt p = c ↔ LConn (adj nel nb) g (g c) c p) := by
  intro p hp
  constructor
  · intro e
    have h1 : ReflTransGen A c p := (h.conn c hc p hp).1 (by rw [e, rc])
    have : ∀ q, ReflTransGen A c q → q ∈ P ∧ rt q = c ∧ LConn (adj nel nb) g (g c) c q := by
      intro q hq
      induction hq with
      | refl => exact ⟨hc, rc, .refl⟩
      | @tail u v _ e ih =>
        obtain ⟨i1, i2, i3⟩ := ih
        obtain ⟨k1, k2, k3, _⟩ := h.act u v e
        have hv : rt v = c := by rw [← i2]; exact ((h.conn u k2 v k3).2 (.single e)).symm
        have gu := h.gray_le i1
        have gv := h.gray_le k3
        rw [i2] at gu
        rw [hv] at gv
        exact ⟨k3, hv, i3.tail ⟨k1, gu, gv⟩⟩
    exact (this p h1).2.2
  · intro h'
    have : ∀ q, LConn (adj nel nb) g (g c) c q → ReflTransGen A c q := by
      intro q hq
      unfold Spec.LConn at hq
      induction hq with
      | refl => exact .refl
      | @tail u v _ e ih =>
        obtain ⟨k1, k2, k3⟩ := e
        have hu : u ≠ i := fun e => by subst e; omega
        have hv : v ≠ i := fun e => by subst e; omega
        exact ih.tail (hF.act u (hF.low u k1.1 (by omega)) v (hF.low v k1.2.1 (by omega)) hu hv k1)
    rw [← rc]
    exact ((h.conn c hc p hp).2 (this p h')).symm

theorem visit_spec (hG : Graph nel nb) (h : Inv nel nb g P A rt d s) {i n r : Nat} (hF : Front nel nb g P A i) (hn : n ∈ nb i) :
    ∃ s' r' A' rt' d', visit nel g junk i (s, r) n = some (s', r') ∧ Inv nel nb g P A' rt' d' s' ∧ (∀ x y, A x y → A' x y) ∧ (n ∈ P → A' i n) := by
  have hi := hF.mem
  by_cases hP : n ∈ P
  · have hil := h.sub i hi
    obtain ⟨hnl, hni⟩ := hG.lt i hil n hn
    have ad1 : adj nel nb i n := ⟨hil, hnl, hn⟩
    have ad2 : adj nel nb n i := ⟨hnl, hil, hG.symm i hil n hn⟩
    obtain ⟨y, _, e, -⟩ := h.par n hP
    have hnn : s.parent n ≠ none := by rw [e]; exact Option.some_ne_none _
    have hj := h.joins_lt hi
    obtain ⟨sc1, c1, c2⟩ := climb_spec (fuel := nel + 1) h.sc h.depth (by omega) hi
    obtain ⟨sc2, c3, c4⟩ := climb_spec (fuel := nel + 1) c2 h.depth (by omega) hP
    unfold visit
    dsimp only
    rw [if_neg hnn, c1, Option.bind_some]
    dsimp only
    rw [c3, Option.bind_some]
    dsimp only
    have hv : g (rt i) = g i := le_antisymm (hF.max _ (h.rt_mem hi)) (h.gray_le hi)
    generalize hS : ({ s with undef := s.undef || (s.hgt r).isNone || (s.hgt 0).isNone, sc := sc2 } : FS) = S
    have h' : Inv nel nb g P A rt d S := by
      subst hS
      exact h.shortcuts c4 rfl rfl rfl rfl
    have hj' : S.njoins < nel := by subst hS; exact hj
    by_cases hr : rt i = rt n
    · rw [if_pos hr]
      exact ⟨_, _, _, _, _, rfl, h'.edge hi hP hr ad1 ad2, fun _ _ h => .inl h, fun _ => .inr (.inl ⟨rfl, rfl⟩)⟩
    · rw [if_neg hr]
      unfold join
      rw [if_pos hj']
      have m1 := h.rt_mem hi
      have m2 := h.rt_mem hP
      have r1 := h.rt_rt hi
      have r2 := h.rt_rt hP
      by_cases hc : g (rt n) = g i ∧ (s.hgt r).getD junk < (s.hgt 0).getD junk
      · rw [if_pos hc, Option.map_some]
        refine ⟨_, _, _, _, _, rfl, h'.attach m1 m2 r1 r2 hr hi hP (.inl ⟨rfl, rfl⟩) ad1 ad2 (by rw [hc.1, hv]) ?_ (up := 0) ?_ ⟨rfl, rfl, rfl, rfl, rfl⟩,
          fun _ _ h => .inl h, fun _ => .inr (.inl ⟨rfl, rfl⟩)⟩
        · intro hlt; omega
        · rw [if_neg (by omega)]
      · rw [if_neg hc, Option.map_some]
        have hle := hF.max _ m2
        refine ⟨_, _, _, _, _, rfl, h'.attach m2 m1 r2 r1 (Ne.symm hr) hi hP (.inr ⟨rfl, rfl⟩) ad1 ad2 (by rw [hv]; exact hle) ?_
          (up := if g (rt n) ≠ g i then 1 else 0) ?_ ⟨rfl, rfl, rfl, rfl, ?_⟩,
          fun _ _ h => .inl h, fun _ => .inr (.inl ⟨rfl, rfl⟩)⟩
        · intro hlt
          exact h.closed hF m2 r2 (by rw [hv] at hlt; exact hlt)
        · rw [hv]
          split <;> split <;> omega
        · dsimp only
          split <;> rfl
  · refine ⟨s, r, A, rt, d, ?_, h, fun _ _ h => h, fun h => absurd h hP⟩
    unfold visit
    dsimp only
    rw [if_pos (h.void n hP)]

theorem visitAll_spec (hG : Graph nel nb) {i : Nat} : ∀ (l : List Nat) (s : FS) (r : Nat) (A : Nat → Nat → Prop) (rt d : Nat → Nat),
    Inv nel nb g P A rt d s → Front nel nb g P A i → (∀ n ∈ l, n ∈ nb i) →
    ∃ s' r' A' rt' d', visitAll nel g junk i l (s, r) = some (s', r') ∧ Inv nel nb g P A' rt' d' s' ∧ (∀ x y, A x y → A' x y) ∧
      ∀ n ∈ l, n ∈ P → A' i n := by
  intro l
  induction l with
  | nil => intro s r A rt d h _ _; exact ⟨s, r, A, rt, d, rfl, h, fun _ _ h => h, by simp⟩
  | cons n l ih =>
    intro s r A rt d h hF hl
    obtain ⟨s1, r1, A1, rt1, d1, e1, h1, k1, k2⟩ := visit_spec (junk := junk) (r := r) hG h hF (hl n List.mem_cons_self)
    have hF1 : Front nel nb g P A1 i := ⟨hF.mem, hF.max, hF.low, fun x hx y hy a b c => k1 _ _ (hF.act x hx y hy a b c)⟩
    obtain ⟨s2, r2, A2, rt2, d2, e2, h2, k3, k4⟩ := ih s1 r1 A1 rt1 d1 h1 hF1 fun m hm => hl m (List.mem_cons_of_mem _ hm)
    refine ⟨s2, r2, A2, rt2, d2, by rw [visitAll, e1, Option.bind_some, e2], h2, fun x y h => k3 _ _ (k1 _ _ h), ?_⟩
    intro m hm hmP
    rcases List.mem_cons.1 hm with rfl | hm
    · exact k3 _ _ (k2 hmP)
    · exact k4 m hm hmP

/-- The forest of the pixels in `P` is complete. -/
structure Full (nel : Nat) (nb : Nat → List Nat) (g : Nat → Nat) (P : Finset Nat) (s : FS) : Prop where
  inv : ∃ A rt d, Inv nel nb g P A rt d s ∧ ∀ x ∈ P, ∀ y ∈ P, adj nel nb x y → A x y

theorem pixel_spec (hG : Graph nel nb) (h : Full nel nb g P s) {i : Nat} (hi : i < nel) (hn : i ∉ P) (hmax : ∀ x ∈ P, g x ≤ g i)
    (hlow : ∀ x < nel, g x < g i → x ∈ P) : ∃ s', pixel nel nb g junk s i = some s' ∧ Full nel nb g (insert i P) s' := by
  obtain ⟨A, rt, d, hI, hA⟩ := h.inv
  have hI' := hI.enter hi hn hmax
  have hF : Front nel nb g (insert i P) A i := by
    refine ⟨Finset.mem_insert_self _ _, ?_, fun x hx h => Finset.mem_insert_of_mem (hlow x hx h), ?_⟩
    · intro x hx
      rcases Finset.mem_insert.1 hx with rfl | hx
      · exact le_refl _
      · exact hmax x hx
    · intro x hx y hy h1 h2 h3
      exact hA x ((Finset.mem_insert.1 hx).resolve_left h1) y ((Finset.mem_insert.1 hy).resolve_left h2) h3
  obtain ⟨s', r', A', rt', d', e, h1, h2, h3⟩ := visitAll_spec (junk := junk) hG (nb i) _ i _ _ _ hI' hF fun _ h => h
  refine ⟨s', by rw [pixel, e, Option.map_some], ⟨A', rt', d', h1, ?_⟩⟩
  intro x hx y hy hxy
  by_cases e1 : x = i
  · subst e1; exact h3 y hxy.2.2 hy
  · by_cases e2 : y = i
    · subst e2
      exact (h1.act _ _ (h3 x (hG.symm x hxy.1 y hxy.2.2) hx)).2.2.2
    · exact h2 _ _ (hF.act x hx y hy e1 e2 hxy)

theorem pixels_spec (hG : Graph nel nb) : ∀ (l : List Nat) (P : Finset Nat) (s : FS), Full nel nb g P s → l.Nodup →
    (∀ i ∈ l, i < nel ∧ i ∉ P) → (∀ x ∈ P, ∀ i ∈ l, g x ≤ g i) → (∀ x < nel, x ∈ P ∨ x ∈ l) → l.Pairwise (fun a b => g a ≤ g b) →
    ∃ s', pixels nel nb g junk l s = some s' ∧ Full nel nb g (Finset.range nel) s' := by
  intro l
  induction l with
  | nil =>
    intro P s h _ _ _ hall _
    have : P = Finset.range nel := by
      obtain ⟨A, rt, d, hI, -⟩ := h.inv
      ext x
      rw [Finset.mem_range]
      exact ⟨hI.sub x, fun hx => (hall x hx).resolve_right (by simp)⟩
    exact ⟨s, rfl, by rw [← this]; exact h⟩
  | cons i l ih =>
    intro P s h hnd hl hg hall hs
    rw [List.nodup_cons] at hnd
    rw [List.pairwise_cons] at hs
    obtain ⟨h1, h2⟩ := hl i List.mem_cons_self
    obtain ⟨s1, e1, k1⟩ := pixel_spec (junk := junk) hG h h1 h2 (fun x hx => hg x hx i List.mem_cons_self) (by
      intro x hx hlt
      rcases hall x hx with h | h
      · exact h
      · rcases List.mem_cons.1 h with rfl | h
        · omega
        · have := hs.1 x h
          omega)
    obtain ⟨s2, e2, k2⟩ := ih (insert i P) s1 k1 hnd.2
      (by
        intro j hj
        refine ⟨(hl j (List.mem_cons_of_mem _ hj)).1, fun h => ?_⟩
        rcases Finset.mem_insert.1 h with rfl | h
        · exact hnd.1 hj
        · exact (hl j (List.mem_cons_of_mem _ hj)).2 h)
      (by
        intro x hx j hj
        rcases Finset.mem_insert.1 hx with rfl | hx
        · exact hs.1 j hj
        · exact hg x hx j (List.mem_cons_of_mem _ hj))
      (by
        intro x hx
        rcases hall x hx with h | h
        · exact .inl (Finset.mem_insert_of_mem h)
        · rcases List.mem_cons.1 h with rfl | h
          · exact .inl (Finset.mem_insert_self _ _)
          · exact .inr h)
      hs.2
    exact ⟨s2, by rw [pixels, e1, Option.bind_some, e2], k2⟩

/-- The empty forest. -/
theorem full_empty (s : FS) : Full nel nb g ∅ { s with parent := fun _ => none, njoins := 0, ner := 0 } := by
  refine ⟨fun _ _ => False, id, fun _ => 0, ?_, by simp⟩
  refine ⟨by simp, fun _ _ => rfl, by simp, ⟨by simp, by simp, by simp, by simp⟩, by simp, by simp, fun _ _ h => h.elim, by simp, by simp, by simp, by simp⟩

end Verif.VlFeat
