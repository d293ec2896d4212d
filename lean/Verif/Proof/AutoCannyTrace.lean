import Verif.Proof.AutoCanny

/-!
# Edge detector with automatic thresholds: following the edges
-/

namespace Verif.AutoCanny

open Verif.Spec
open Relation (ReflTransGen)

/-- The number of pixels still to be looked at. -/
def left (c : Cfg) (temp : Nat × Nat → Bool) : Nat := ((pixels c.w c.h).filter fun q => temp q = true).card

theorem left_put {c : Cfg} {temp : Nat × Nat → Bool} {q : Nat × Nat} (hq : q ∈ pixels c.w c.h) (ht : temp q = true) :
    left c (put temp q false) + 1 = left c temp := by
  unfold left
  have : (pixels c.w c.h).filter (fun r => put temp q false r = true) = ((pixels c.w c.h).filter fun r => temp r = true).erase q := by
    ext r
    rw [Finset.mem_erase, Finset.mem_filter, Finset.mem_filter]
    unfold put
    by_cases e : r = q
    · simp [e]
    · simp [e]
  rw [this]
  exact Finset.card_erase_add_one (Finset.mem_filter.2 ⟨hq, ht⟩)

theorem left_le (c : Cfg) (temp : Nat × Nat → Bool) : left c temp ≤ c.w * c.h := by
  unfold left
  calc _ ≤ (pixels c.w c.h).card := Finset.card_filter_le _ _
    _ = _ := by unfold pixels; rw [Finset.card_product, Finset.card_range, Finset.card_range]

/-- The positions of `l` in the image. -/
def within (c : Cfg) (l : List (Int × Int)) : List (Nat × Nat) := (l.filter fun o => inImage c o).map pix

theorem pix_mem {c : Cfg} {o : Int × Int} (h : inImage c o = true) : pix o ∈ pixels c.w c.h := by
  unfold inImage at h
  have h := of_decide_eq_true h
  refine mem_pixels.2 ⟨?_, ?_⟩
  · show o.1.toNat < c.w; omega
  · show o.2.toNat < c.h; omega

/-- What the visit of some positions does. -/
theorem trPixels_spec (c : Cfg) (low : Int) : ∀ (l : List (Int × Int)) (s : Tr),
    (∀ q, (l.foldl (trPixel c low) s).edge q = true ↔ s.edge q = true ∨ (q ∈ within c l ∧ low ≤ c.mag q ∧ s.temp q = true)) ∧
    (∀ q, (l.foldl (trPixel c low) s).temp q = true ↔ s.temp q = true ∧ ¬(q ∈ within c l ∧ low ≤ c.mag q ∧ s.edge q = false)) ∧
    (∀ q, q ∈ (l.foldl (trPixel c low) s).stack ↔
      q ∈ s.stack ∨ (q ∈ within c l ∧ low ≤ c.mag q ∧ s.edge q = false ∧ s.temp q = true)) ∧
    (l.foldl (trPixel c low) s).stack.length + left c (l.foldl (trPixel c low) s).temp = s.stack.length + left c s.temp
  | [], s => by simp [within]
  | o :: l, s => by
    rw [List.foldl_cons]
    by_cases hi : inImage c o = true
    · have hw : within c (o :: l) = pix o :: within c l := by
        unfold within
        rw [List.filter_cons_of_pos hi, List.map_cons]
      rw [hw]
      by_cases hc : c.mag (pix o) < low ∨ s.edge (pix o) = true ∨ s.temp (pix o) = false
      · have hs : trPixel c low s o = s := by
          unfold trPixel
          rw [if_pos hi]
          exact if_pos hc
        rw [hs]
        obtain ⟨a1, a2, a3, a4⟩ := trPixels_spec c low l s
        refine ⟨?_, ?_, ?_, a4⟩
        · intro q
          rw [a1 q, List.mem_cons]
          by_cases e : q = pix o
          · subst e
            rcases hc with h | h | h
            · have : ¬low ≤ c.mag (pix o) := by omega
              simp [this]
            · simp [h]
            · simp [h]
          · simp [e]
        · intro q
          rw [a2 q, List.mem_cons]
          by_cases e : q = pix o
          · subst e
            rcases hc with h | h | h
            · have : ¬low ≤ c.mag (pix o) := by omega
              simp [this]
            · simp [h]
            · simp [h]
          · simp [e]
        · intro q
          rw [a3 q, List.mem_cons]
          by_cases e : q = pix o
          · subst e
            rcases hc with h | h | h
            · have : ¬low ≤ c.mag (pix o) := by omega
              simp [this]
            · simp [h]
            · simp [h]
          · simp [e]
      · have hs : trPixel c low s o = { edge := put s.edge (pix o) true, temp := put s.temp (pix o) false, stack := pix o :: s.stack } := by
          unfold trPixel
          rw [if_pos hi]
          exact if_neg hc
        rw [hs]
        obtain ⟨a1, a2, a3, a4⟩ := trPixels_spec c low l
          { edge := put s.edge (pix o) true, temp := put s.temp (pix o) false, stack := pix o :: s.stack }
        dsimp only at a1 a2 a3 a4
        have h1 : low ≤ c.mag (pix o) := by
          by_contra h; exact hc (Or.inl (by omega))
        have h2 : s.edge (pix o) = false := by
          by_contra h; exact hc (Or.inr (Or.inl (by simpa using h)))
        have h3 : s.temp (pix o) = true := by
          by_contra h; exact hc (Or.inr (Or.inr (by simpa using h)))
        refine ⟨?_, ?_, ?_, ?_⟩
        · intro q
          rw [a1 q, List.mem_cons]
          unfold put
          by_cases e : q = pix o
          · subst e; simp [h1, h3]
          · simp [e]
        · intro q
          rw [a2 q, List.mem_cons]
          unfold put
          by_cases e : q = pix o
          · subst e; simp [h1, h2]
          · simp [e]
        · intro q
          rw [a3 q, List.mem_cons, List.mem_cons]
          unfold put
          by_cases e : q = pix o
          · subst e; simp [h1, h2, h3]
          · simp [e]
        · rw [a4, List.length_cons]
          have := left_put (pix_mem hi) h3
          omega
    · have hw : within c (o :: l) = within c l := by
        unfold within
        rw [List.filter_cons_of_neg hi]
      have hs : trPixel c low s o = s := by
        unfold trPixel
        rw [if_neg hi]
      rw [hs, hw]
      exact trPixels_spec c low l s

/-- The invariant of the following of edges: `E` the edges before, `T` the pixels that can be added. -/
structure TrInv (c : Cfg) (E T : Nat × Nat → Bool) (l1 l2 : Int) (s : Tr) : Prop where
  up : ∀ q, E q = true → s.edge q = true
  src : ∀ q, s.edge q = true → Followed c.w c.h (fun r => E r = true) (fun r => T r = true) c.mag l1 q
  inT : ∀ q, s.edge q = true → T q = true
  temp : ∀ q, s.temp q = true → T q = true
  gone : ∀ q, T q = true → s.temp q = false → s.edge q = true
  own : ∀ q, s.edge q = true → s.temp q = true → E q = true
  stk : ∀ q ∈ s.stack, s.edge q = true ∧ q ∈ pixels c.w c.h
  closed : ∀ q, s.edge q = true → s.temp q = false → q ∈ s.stack ∨
    ∀ o, Adj8 c.w c.h q o → T o = true → l2 ≤ c.mag o → s.edge o = true

theorem mem_within {c : Cfg} {p q : Nat × Nat} (hp : p ∈ pixels c.w c.h) : q ∈ within c (around p) ↔ Adj8 c.w c.h p q := by
  unfold within
  rw [List.mem_map]
  constructor
  · rintro ⟨o, ho, rfl⟩
    rw [List.mem_filter] at ho
    exact around_adj hp ho.1 ho.2
  · intro h
    obtain ⟨o, h1, h2, h3⟩ := adj_around h
    exact ⟨o, List.mem_filter.2 ⟨h1, h2⟩, h3⟩

theorem trLoop_spec {c : Cfg} {E T : Nat × Nat → Bool} {l1 l2 low : Int} (hl : l1 ≤ low ∧ low ≤ l2) : ∀ (n : Nat) (s : Tr),
    TrInv c E T l1 l2 s → s.stack.length + left c s.temp < n →
    ∃ s', trLoop c low n s = some s' ∧ TrInv c E T l1 l2 s' ∧ s'.stack = [] ∧ (∀ q, s'.temp q = true → s.temp q = true) ∧
      (∀ q, s'.edge q = true → s.edge q = true ∨ s'.temp q = false)
  | 0, _, _, h => by omega
  | n + 1, s, h, hm => by
    rw [trLoop]
    cases hs : s.stack with
    | nil => exact ⟨s, rfl, h, hs, fun _ h => h, fun _ h => Or.inl h⟩
    | cons p rest =>
      dsimp only
      obtain ⟨hpe, hpp⟩ := h.stk p (by rw [hs]; exact List.mem_cons_self ..)
      obtain ⟨a1, a2, a3, a4⟩ := trPixels_spec c low (around p) { s with stack := rest }
      generalize hg : (around p).foldl (trPixel c low) { s with stack := rest } = t at a1 a2 a3 a4 ⊢
      dsimp only at a1 a2 a3 a4
      simp only [mem_within hpp] at a1 a2 a3
      have hC : TrInv c E T l1 l2 t := by
        refine ⟨fun q hq => (a1 q).2 (Or.inl (h.up q hq)), ?_, ?_, fun q hq => h.temp q ((a2 q).1 hq).1, ?_, ?_, ?_, ?_⟩
        · intro q hq
          rcases (a1 q).1 hq with h1 | ⟨h1, h2, h3⟩
          · exact h.src q h1
          · obtain ⟨r, h4, h5⟩ := h.src p hpe
            exact ⟨r, h4, ReflTransGen.tail h5 ⟨h1, Or.inr ⟨h.temp q h3, by omega⟩⟩⟩
        · intro q hq
          rcases (a1 q).1 hq with h1 | ⟨h1, h2, h3⟩
          · exact h.inT q h1
          · exact h.temp q h3
        · intro q hT ht
          by_cases hst : s.temp q = true
          · by_cases hx : Adj8 c.w c.h p q ∧ low ≤ c.mag q ∧ s.edge q = false
            · exact (a1 q).2 (Or.inr ⟨hx.1, hx.2.1, hst⟩)
            · rw [(a2 q).2 ⟨hst, hx⟩] at ht; cases ht
          · exact (a1 q).2 (Or.inl (h.gone q hT (by simpa using hst)))
        · intro q hq ht
          obtain ⟨h1, h2⟩ := (a2 q).1 ht
          rcases (a1 q).1 hq with h3 | ⟨h3, h4, h5⟩
          · exact h.own q h3 h1
          · by_cases he : s.edge q = true
            · exact h.own q he h1
            · exact absurd ⟨h3, h4, by simpa using he⟩ h2
        · intro q hq
          rcases (a3 q).1 hq with h1 | ⟨h1, h2, h3, h4⟩
          · obtain ⟨h5, h6⟩ := h.stk q (by rw [hs]; exact List.mem_cons_of_mem _ h1)
            exact ⟨(a1 q).2 (Or.inl h5), h6⟩
          · exact ⟨(a1 q).2 (Or.inr ⟨h1, h2, h4⟩), h1.2.1⟩
        · intro q hq ht
          by_cases hx : Adj8 c.w c.h p q ∧ low ≤ c.mag q ∧ s.edge q = false ∧ s.temp q = true
          · exact Or.inl ((a3 q).2 (Or.inr hx))
          · have hse : s.edge q = true := by
              rcases (a1 q).1 hq with h1 | ⟨h1, h2, h3⟩
              · exact h1
              · by_contra he
                exact hx ⟨h1, h2, by simpa using he, h3⟩
            have hst : s.temp q = false := by
              by_contra h1
              have : t.temp q = true := (a2 q).2 ⟨by simpa using h1, fun h2 => by rw [hse] at h2; exact absurd h2.2.2 (by simp)⟩
              rw [ht] at this; cases this
            rcases h.closed q hse hst with h1 | h1
            · rw [hs] at h1
              rcases List.mem_cons.1 h1 with rfl | h1
              · refine Or.inr fun o ho hT hmag => ?_
                by_cases hot : s.temp o = true
                · exact (a1 o).2 (Or.inr ⟨ho, by omega, hot⟩)
                · exact (a1 o).2 (Or.inl (h.gone o hT (by simpa using hot)))
              · exact Or.inl ((a3 q).2 (Or.inl h1))
            · exact Or.inr fun o ho hT hmag => (a1 o).2 (Or.inl (h1 o ho hT hmag))
      rw [hs, List.length_cons] at hm
      obtain ⟨s', b1, b2, b3, b4, b5⟩ := trLoop_spec hl n t hC (by omega)
      refine ⟨s', b1, b2, b3, fun q hq => ((a2 q).1 (b4 q hq)).1, ?_⟩
      intro q hq
      rcases b5 q hq with h1 | h1
      · rcases (a1 q).1 h1 with h2 | ⟨h2, h3, h4⟩
        · exact Or.inl h2
        · by_cases he : s.edge q = true
          · exact Or.inl he
          · right
            by_contra hc
            exact ((a2 q).1 (b4 q (by simpa using hc))).2 ⟨h2, h3, by simpa using he⟩
      · exact Or.inr h1

/-- The following of all edges. -/
theorem traceAll_spec {c : Cfg} {E T : Nat × Nat → Bool} {l1 l2 : Int} (hl : ∀ p, E p = true → l1 ≤ c.low p ∧ c.low p ≤ l2) :
    ∀ (l done : List (Nat × Nat)) (s : (Nat × Nat → Bool) × (Nat × Nat → Bool)), (∀ p ∈ l, p ∈ pixels c.w c.h) →
    TrInv c E T l1 l2 { edge := s.1, temp := s.2, stack := [] } → (∀ q ∈ done, s.1 q = true → s.2 q = false) →
    ∃ s', traceAll c l s = some s' ∧ TrInv c E T l1 l2 { edge := s'.1, temp := s'.2, stack := [] } ∧
      (∀ q, q ∈ l ∨ q ∈ done → s'.1 q = true → s'.2 q = false)
  | [], done, s, _, h, hd => ⟨s, rfl, h, by intro q hq; exact hd q (by simpa using hq)⟩
  | p :: l, done, s, hp, h, hd => by
    have hpp := hp p (List.mem_cons_self ..)
    have key : ∃ s', (if s.1 p = true ∧ s.2 p = true then
        (trLoop c (c.low p) (c.w * c.h + 2) { edge := s.1, temp := put s.2 p false, stack := [p] }).map fun t => (t.edge, t.temp)
        else some s) = some s' ∧ TrInv c E T l1 l2 { edge := s'.1, temp := s'.2, stack := [] } ∧
        (∀ q, q ∈ p :: done → s'.1 q = true → s'.2 q = false) := by
      by_cases hc : s.1 p = true ∧ s.2 p = true
      · rw [if_pos hc]
        have h0 : TrInv c E T l1 l2 { edge := s.1, temp := put s.2 p false, stack := [p] } := by
          have hput : ∀ q, put s.2 p false q = true → s.2 q = true := by
            intro q
            unfold put
            split
            · intro e; cases e
            · exact id
          refine ⟨h.up, h.src, h.inT, fun q hq => h.temp q (hput q hq), ?_, fun q hq ht => h.own q hq (hput q ht), ?_, ?_⟩
          · intro q hT ht
            dsimp only at ht ⊢
            unfold put at ht
            by_cases e : q = p
            · rw [e]; exact hc.1
            · rw [if_neg e] at ht; exact h.gone q hT ht
          · intro q hq
            rw [List.mem_singleton.1 hq]
            exact ⟨hc.1, hpp⟩
          · intro q hq ht
            by_cases e : q = p
            · exact Or.inl (List.mem_singleton.2 e)
            · dsimp only at ht
              unfold put at ht
              rw [if_neg e] at ht
              rcases h.closed q hq ht with h1 | h1
              · cases h1
              · exact Or.inr h1
        obtain ⟨t, b1, b2, b3, b4, b5⟩ := trLoop_spec (hl p (h.own p hc.1 hc.2)) (c.w * c.h + 2) _ h0 (by
          have := left_le c (put s.2 p false)
          simp only [List.length_singleton]
          omega)
        refine ⟨(t.edge, t.temp), by rw [b1]; rfl, ?_, ?_⟩
        · have : ({ edge := t.edge, temp := t.temp, stack := [] } : Tr) = t := by rw [← b3]
          rw [this]; exact b2
        · intro q hq he
          dsimp only at he ⊢
          rcases b5 q he with h1 | h1
          · by_contra ht
            have h2 := b4 q (by simpa using ht)
            dsimp only at h1 h2
            unfold put at h2
            by_cases e : q = p
            · rw [if_pos e] at h2; cases h2
            · rw [if_neg e] at h2
              rcases List.mem_cons.1 hq with h3 | h3
              · exact e h3
              · rw [hd q h3 h1] at h2; cases h2
          · exact h1
      · rw [if_neg hc]
        refine ⟨s, rfl, h, ?_⟩
        intro q hq he
        rcases List.mem_cons.1 hq with rfl | h3
        · by_contra ht
          exact hc ⟨he, by simpa using ht⟩
        · exact hd q h3 he
    obtain ⟨s', k1, k2, k3⟩ := key
    obtain ⟨s'', m1, m2, m3⟩ := traceAll_spec hl l (p :: done) s' (fun q hq => hp q (List.mem_cons_of_mem _ hq)) k2 k3
    refine ⟨s'', by rw [traceAll, k1, Option.bind_some]; exact m1, m2, ?_⟩
    intro q hq
    refine m3 q ?_
    rcases hq with hq | hq
    · rcases List.mem_cons.1 hq with e | e
      · exact Or.inr (List.mem_cons.2 (Or.inl e))
      · exact Or.inl e
    · exact Or.inr (List.mem_cons_of_mem _ hq)

theorem mem_all {c : Cfg} {p : Nat × Nat} : p ∈ allPixels c ↔ p ∈ pixels c.w c.h := by
  obtain ⟨x, y⟩ := p
  rw [mem_pixels]
  unfold allPixels
  simp only [List.mem_flatMap, List.mem_map, List.mem_range, Prod.mk.injEq]
  constructor
  · rintro ⟨a, h1, b, h2, rfl, rfl⟩
    exact ⟨h2, h1⟩
  · rintro ⟨h1, h2⟩
    exact ⟨y, h2, x, h1, rfl, rfl⟩

/-- The edges afterwards: between those followed with the largest and with the smallest threshold. -/
theorem trace_spec {c : Cfg} {E T : Nat × Nat → Bool} {l1 l2 : Int} (hl : ∀ p, E p = true → l1 ≤ c.low p ∧ c.low p ≤ l2)
    (hs : ∀ p, E p = true → T p = true) (hp : ∀ p, T p = true → p ∈ pixels c.w c.h) :
    ∃ s, traceAll c (allPixels c) (E, T) = some s ∧ (∀ q, E q = true → s.1 q = true) ∧ (∀ q, s.1 q = true → T q = true) ∧
      (∀ q, s.1 q = true → Followed c.w c.h (fun r => E r = true) (fun r => T r = true) c.mag l1 q) ∧
      (∀ q, Followed c.w c.h (fun r => E r = true) (fun r => T r = true) c.mag l2 q → s.1 q = true) := by
  have h0 : TrInv c E T l1 l2 { edge := E, temp := T, stack := [] } := by
    refine ⟨fun _ h => h, fun q hq => ⟨q, hq, ReflTransGen.refl⟩, hs, fun _ h => h, ?_, fun _ h _ => h, ?_, ?_⟩
    · intro q h1 h2
      dsimp only at h2
      rw [h1] at h2; cases h2
    · intro q hq
      cases hq
    · intro q h1 h2
      dsimp only at h1 h2
      rw [hs q h1] at h2; cases h2
  obtain ⟨s, h1, h2, h3⟩ := traceAll_spec hl (allPixels c) [] (E, T) (fun p hp => mem_all.1 hp) h0 (by intro q hq; cases hq)
  refine ⟨s, h1, h2.up, h2.inT, h2.src, ?_⟩
  rintro q ⟨r, hr, hc⟩
  induction hc with
  | refl => exact h2.up r hr
  | tail g1 g2 ih =>
    rename_i b d
    rcases g2.2 with e | e
    · exact h2.up d e
    · have hb := h3 b (Or.inl (mem_all.2 (hp b (h2.inT b ih)))) ih
      rcases h2.closed b ih hb with k | k
      · cases k
      · exact k d g2.1 e.1 e.2

end Verif.AutoCanny
