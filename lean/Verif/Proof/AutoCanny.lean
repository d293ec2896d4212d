import Verif.Model.AutoCanny
import Verif.Spec.EdgeTrack
import Mathlib.Data.Finset.Card
import Mathlib.Data.List.Nodup

/-!
# Edge detector with automatic thresholds: the removal of small edges
-/

namespace Verif.AutoCanny

open Verif.Spec
open Relation (ReflTransGen)

/-- The pixel at a position. -/
def pix (o : Int × Int) : Nat × Nat := (o.1.toNat, o.2.toNat)

theorem around_adj {c : Cfg} {p : Nat × Nat} (hp : p ∈ pixels c.w c.h) {o : Int × Int} (ho : o ∈ around p) (hi : inImage c o = true) :
    Adj8 c.w c.h p (pix o) := by
  obtain ⟨x, y⟩ := p
  obtain ⟨u, v⟩ := o
  unfold inImage at hi
  have hi := of_decide_eq_true hi
  dsimp only at hi
  rw [mem_pixels] at hp
  unfold around offsets at ho
  simp only [List.map_cons, List.map_nil, List.mem_cons, List.not_mem_nil, or_false, Prod.mk.injEq] at ho
  refine ⟨mem_pixels.2 hp, mem_pixels.2 ⟨?_, ?_⟩, ?_, ?_⟩
  · show u.toNat < c.w; omega
  · show v.toNat < c.h; omega
  · intro e
    have e1 : x = u.toNat := congrArg Prod.fst e
    have e2 : y = v.toNat := congrArg Prod.snd e
    omega
  · show x ≤ u.toNat + 1 ∧ u.toNat ≤ x + 1 ∧ y ≤ v.toNat + 1 ∧ v.toNat ≤ y + 1
    omega

theorem adj_around {c : Cfg} {p q : Nat × Nat} (h : Adj8 c.w c.h p q) : ∃ o ∈ around p, inImage c o = true ∧ pix o = q := by
  obtain ⟨x, y⟩ := p
  obtain ⟨u, v⟩ := q
  obtain ⟨h1, h2, h3, h4⟩ := h
  rw [mem_pixels] at h1 h2
  have hne : u ≠ x ∨ v ≠ y := by
    by_contra hc
    exact h3 (Prod.ext (by dsimp only; omega) (by dsimp only; omega))
  dsimp only at h1 h2 h4
  refine ⟨((u : Int), (v : Int)), ?_, decide_eq_true (by dsimp only; omega), by unfold pix; simp⟩
  unfold around offsets
  simp only [List.map_cons, List.map_nil, List.mem_cons, List.not_mem_nil, or_false, Prod.mk.injEq]
  omega

theorem inner_around {c : Cfg} {p : Nat × Nat} (h : Inner c.w c.h p) {o : Int × Int} (ho : o ∈ around p) : inImage c o = true := by
  obtain ⟨x, y⟩ := p
  obtain ⟨u, v⟩ := o
  unfold Inner at h
  dsimp only at h
  unfold around offsets at ho
  simp only [List.map_cons, List.map_nil, List.mem_cons, List.not_mem_nil, or_false, Prod.mk.injEq] at ho
  exact decide_eq_true (by dsimp only; omega)

theorem conn_E {w h : Nat} {E : Nat × Nat → Prop} {a b : Nat × Nat} (ha : E a) (hc : EdgeConn w h E a b) : E b := by
  induction hc with
  | refl => exact ha
  | tail _ h _ => exact h.2

theorem conn_symm {w h : Nat} {E : Nat × Nat → Prop} {a b : Nat × Nat} (ha : E a) (hc : EdgeConn w h E a b) : EdgeConn w h E b a := by
  induction hc with
  | refl => exact ReflTransGen.refl
  | tail h1 h2 ih =>
    obtain ⟨⟨p1, p2, p3, p4, p5, p6, p7⟩, _⟩ := h2
    exact ReflTransGen.head ⟨⟨p2, p1, fun e => p3 e.symm, p5, p4, p7, p6⟩, conn_E ha h1⟩ ih

theorem conn_mono {w h : Nat} {E F : Nat × Nat → Prop} (hs : ∀ q, E q → F q) {a b : Nat × Nat} (hc : EdgeConn w h E a b) : EdgeConn w h F a b := by
  induction hc with
  | refl => exact ReflTransGen.refl
  | tail _ h2 ih => exact ReflTransGen.tail ih ⟨h2.1, hs _ h2.2⟩

/-- What the visit of some positions does. -/
theorem remPixels_spec (c : Cfg) (edge : Nat × Nat → Bool) : ∀ (l : List (Int × Int)) (s : Rem), (∀ o ∈ l, inImage c o = true) →
    s.pts.Nodup → (∀ q ∈ s.pts, s.flag q = true) →
    ∃ s', remPixels c edge l s = some s' ∧
      (∀ q, s'.flag q = true ↔ s.flag q = true ∨ (q ∈ l.map pix ∧ edge q = true)) ∧
      (∀ q, q ∈ s'.pts ↔ q ∈ s.pts ∨ (q ∈ l.map pix ∧ edge q = true ∧ s.flag q = false)) ∧
      (∀ q, q ∈ s'.stack ↔ q ∈ s.stack ∨ (q ∈ l.map pix ∧ edge q = true ∧ s.flag q = false ∧ inBoundary c q = false)) ∧
      s'.pts.Nodup ∧ s'.stack.length + s.pts.length ≤ s.stack.length + s'.pts.length ∧
      (s'.high = true ↔ s.high = true ∨ ∃ q ∈ l.map pix, edge q = true ∧ s.flag q = false ∧ c.keep ≤ c.mag q)
  | [], s, _, hn, _ => ⟨s, rfl, by simp, by simp, by simp, hn, le_refl _, by simp⟩
  | o :: l, s, hl, hn, hf => by
    rw [remPixels]
    unfold remPixel
    rw [if_pos (hl o (List.mem_cons_self ..))]
    show ∃ s', Option.bind (if s.flag (pix o) = true then some s else if edge (pix o) = true then
      some { flag := put s.flag (pix o) true, stack := if inBoundary c (pix o) = true then s.stack else pix o :: s.stack, pts := pix o :: s.pts,
             high := s.high || decide (c.keep ≤ c.mag (pix o)) } else some s) (remPixels c edge l) = some s' ∧ _
    by_cases h1 : s.flag (pix o) = true
    · rw [if_pos h1, Option.bind_some]
      obtain ⟨s', a1, a2, a3, a4, a5, a6, a7⟩ := remPixels_spec c edge l s (fun q hq => hl q (List.mem_cons_of_mem _ hq)) hn hf
      refine ⟨s', a1, ?_, ?_, ?_, a5, a6, ?_⟩
      · intro q
        rw [a2 q]
        by_cases e : q = pix o
        · subst e; simp [h1]
        · simp only [List.map_cons, List.mem_cons, e, false_or]
      · intro q
        rw [a3 q]
        by_cases e : q = pix o
        · subst e; simp [h1]
        · simp only [List.map_cons, List.mem_cons, e, false_or]
      · intro q
        rw [a4 q]
        by_cases e : q = pix o
        · subst e; simp [h1]
        · simp only [List.map_cons, List.mem_cons, e, false_or]
      · rw [a7]
        simp only [List.map_cons, List.mem_cons, exists_eq_or_imp]
        simp [h1]
    · rw [if_neg h1]
      by_cases h2 : edge (pix o) = true
      · rw [if_pos h2, Option.bind_some]
        have h1' : s.flag (pix o) = false := by simpa using h1
        have hnot : pix o ∉ s.pts := fun hm => h1 (hf _ hm)
        obtain ⟨s', a1, a2, a3, a4, a5, a6, a7⟩ := remPixels_spec c edge l
          { flag := put s.flag (pix o) true, stack := if inBoundary c (pix o) = true then s.stack else pix o :: s.stack, pts := pix o :: s.pts,
            high := s.high || decide (c.keep ≤ c.mag (pix o)) } (fun q hq => hl q (List.mem_cons_of_mem _ hq))
          (List.nodup_cons.2 ⟨hnot, hn⟩) (by
            intro q hq
            dsimp only
            unfold put
            rcases List.mem_cons.1 hq with e | e
            · rw [if_pos e]
            · split
              · rfl
              · exact hf q e)
        dsimp only at a2 a3 a4 a6 a7
        refine ⟨s', a1, ?_, ?_, ?_, a5, ?_, ?_⟩
        · intro q
          rw [a2 q]
          unfold put
          by_cases e : q = pix o
          · subst e; simp [h2]
          · simp only [List.map_cons, List.mem_cons, e, false_or, if_false]
        · intro q
          rw [a3 q]
          unfold put
          by_cases e : q = pix o
          · subst e; simp [h2, h1']
          · simp only [List.map_cons, List.mem_cons, e, false_or, if_false]
        · intro q
          rw [a4 q]
          unfold put
          by_cases e : q = pix o
          · subst e
            by_cases hb : inBoundary c (pix o) = true
            · simp [hb]
            · simp [hb, h2, h1']
          · by_cases hb : inBoundary c (pix o) = true
            · simp only [List.map_cons, List.mem_cons, e, false_or, if_false, hb, if_true]
            · simp only [List.map_cons, List.mem_cons, e, false_or, if_false, hb]
              simp [e]
        · rw [List.length_cons] at a6
          split at a6
          · omega
          · rw [List.length_cons] at a6; omega
        · rw [a7]
          unfold put
          simp only [List.map_cons, List.mem_cons, exists_eq_or_imp, Bool.or_eq_true, decide_eq_true_eq]
          constructor
          · rintro ((h | h) | ⟨q, b1, b2, b3, b4⟩)
            · exact Or.inl h
            · exact Or.inr (Or.inl ⟨h2, h1', h⟩)
            · refine Or.inr (Or.inr ⟨q, b1, b2, ?_, b4⟩)
              split at b3
              · cases b3
              · exact b3
          · rintro (h | ⟨_, _, h⟩ | ⟨q, b1, b2, b3, b4⟩)
            · exact Or.inl (Or.inl h)
            · exact Or.inl (Or.inr h)
            · by_cases e : q = pix o
              · exact Or.inl (Or.inr (e ▸ b4))
              · exact Or.inr ⟨q, b1, b2, by rw [if_neg e]; exact b3, b4⟩
      · rw [if_neg h2, Option.bind_some]
        obtain ⟨s', a1, a2, a3, a4, a5, a6, a7⟩ := remPixels_spec c edge l s (fun q hq => hl q (List.mem_cons_of_mem _ hq)) hn hf
        refine ⟨s', a1, ?_, ?_, ?_, a5, a6, ?_⟩
        · intro q
          rw [a2 q]
          by_cases e : q = pix o
          · subst e; simp [h2]
          · simp only [List.map_cons, List.mem_cons, e, false_or]
        · intro q
          rw [a3 q]
          by_cases e : q = pix o
          · subst e; simp [h2]
          · simp only [List.map_cons, List.mem_cons, e, false_or]
        · intro q
          rw [a4 q]
          by_cases e : q = pix o
          · subst e; simp [h2]
          · simp only [List.map_cons, List.mem_cons, e, false_or]
        · rw [a7]
          simp only [List.map_cons, List.mem_cons, exists_eq_or_imp]
          simp [h2]

/-- The invariant of the collection of an edge from `p`, with the flags `fl` at its start. -/
structure Coll (c : Cfg) (edge fl : Nat × Nat → Bool) (p : Nat × Nat) (s : Rem) : Prop where
  flag : ∀ q, s.flag q = true ↔ fl q = true ∨ q ∈ s.pts
  pts : ∀ q ∈ s.pts, fl q = false ∧ edge q = true ∧ q ∈ pixels c.w c.h ∧ EdgeConn c.w c.h (fun r => edge r = true) p q
  nodup : s.pts.Nodup
  stk : ∀ q ∈ s.stack, q ∈ s.pts ∧ Inner c.w c.h q
  closed : ∀ q ∈ s.pts, Inner c.w c.h q → q ∈ s.stack ∨ ∀ o, Adj8 c.w c.h q o → edge o = true → s.flag o = true
  high : s.high = true ↔ ∃ q ∈ s.pts, c.keep ≤ c.mag q
  start : p ∈ s.pts

theorem boundary_iff {c : Cfg} {q : Nat × Nat} (hq : q ∈ pixels c.w c.h) : inBoundary c q = false ↔ Inner c.w c.h q := by
  have := mem_pixels.1 hq
  unfold inBoundary Inner
  rw [decide_eq_false_iff_not]
  omega

theorem pts_le {c : Cfg} {l : List (Nat × Nat)} (hn : l.Nodup) (h : ∀ q ∈ l, q ∈ pixels c.w c.h) : l.length ≤ c.w * c.h := by
  rw [← List.toFinset_card_of_nodup hn]
  calc _ ≤ (pixels c.w c.h).card := Finset.card_le_card fun q hq => h q (List.mem_toFinset.1 hq)
    _ = _ := by unfold pixels; rw [Finset.card_product, Finset.card_range, Finset.card_range]

theorem remLoop_spec {c : Cfg} {edge fl : Nat × Nat → Bool} {p : Nat × Nat} : ∀ (n : Nat) (s : Rem), Coll c edge fl p s →
    s.stack.length + (c.w * c.h - s.pts.length) < n → ∃ s', remLoop c edge n s = some s' ∧ Coll c edge fl p s' ∧ s'.stack = []
  | 0, _, _, h => by omega
  | n + 1, s, h, hm => by
    rw [remLoop]
    cases hs : s.stack with
    | nil => exact ⟨s, rfl, h, hs⟩
    | cons q rest =>
      dsimp only
      have hq := h.stk q (by rw [hs]; exact List.mem_cons_self ..)
      have hqp := h.pts q hq.1
      obtain ⟨t, a1, a2, a3, a4, a5, a6, a7⟩ := remPixels_spec c edge (around q) { s with stack := rest }
        (fun o ho => inner_around hq.2 ho) h.nodup (fun r hr => (h.flag r).2 (Or.inr hr))
      dsimp only at a2 a3 a4 a6 a7
      have hadj : ∀ r, r ∈ (around q).map pix → Adj8 c.w c.h q r := by
        intro r hr
        obtain ⟨o, ho, rfl⟩ := List.mem_map.1 hr
        exact around_adj hqp.2.2.1 ho (inner_around hq.2 ho)
      have hadj' : ∀ r, Adj8 c.w c.h q r → r ∈ (around q).map pix := by
        intro r hr
        obtain ⟨o, ho, _, e⟩ := adj_around hr
        exact List.mem_map.2 ⟨o, ho, e⟩
      have hfl : ∀ r, s.flag r = false → fl r = false ∧ r ∉ s.pts := by
        intro r hr
        have := h.flag r
        rw [hr] at this
        constructor
        · by_contra hc
          exact absurd (this.2 (Or.inl (by simpa using hc))) (by simp)
        · exact fun hc => absurd (this.2 (Or.inr hc)) (by simp)
      have hC : Coll c edge fl p t := by
        refine ⟨?_, ?_, a5, ?_, ?_, ?_, (a3 p).2 (Or.inl h.start)⟩
        · intro r
          rw [a2 r, a3 r, h.flag r]
          constructor
          · rintro ((h1 | h1) | ⟨h1, h2⟩)
            · exact Or.inl h1
            · exact Or.inr (Or.inl h1)
            · by_cases hf : s.flag r = true
              · rcases (h.flag r).1 hf with e | e
                · exact Or.inl e
                · exact Or.inr (Or.inl e)
              · exact Or.inr (Or.inr ⟨h1, h2, by simpa using hf⟩)
          · rintro (h1 | h1 | ⟨h1, h2, _⟩)
            · exact Or.inl (Or.inl h1)
            · exact Or.inl (Or.inr h1)
            · exact Or.inr ⟨h1, h2⟩
        · intro r hr
          rcases (a3 r).1 hr with h1 | ⟨h1, h2, h3⟩
          · exact h.pts r h1
          · exact ⟨(hfl r h3).1, h2, (hadj r h1).2.1, ReflTransGen.tail hqp.2.2.2 ⟨hadj r h1, h2⟩⟩
        · intro r hr
          rcases (a4 r).1 hr with h1 | ⟨h1, h2, h3, h4⟩
          · obtain ⟨h5, h6⟩ := h.stk r (by rw [hs]; exact List.mem_cons_of_mem _ h1)
            exact ⟨(a3 r).2 (Or.inl h5), h6⟩
          · exact ⟨(a3 r).2 (Or.inr ⟨h1, h2, h3⟩), (boundary_iff (hadj r h1).2.1).1 h4⟩
        · intro r hr hi
          rcases (a3 r).1 hr with h1 | ⟨h1, h2, h3⟩
          · rcases h.closed r h1 hi with h4 | h4
            · rw [hs] at h4
              rcases List.mem_cons.1 h4 with rfl | h4
              · exact Or.inr fun o ho he => (a2 o).2 (Or.inr ⟨hadj' o ho, he⟩)
              · exact Or.inl ((a4 r).2 (Or.inl h4))
            · exact Or.inr fun o ho he => (a2 o).2 (Or.inl (h4 o ho he))
          · exact Or.inl ((a4 r).2 (Or.inr ⟨h1, h2, h3, (boundary_iff (hadj r h1).2.1).2 hi⟩))
        · rw [a7, h.high]
          constructor
          · rintro (⟨r, h1, h2⟩ | ⟨r, h1, h2, h3, h4⟩)
            · exact ⟨r, (a3 r).2 (Or.inl h1), h2⟩
            · exact ⟨r, (a3 r).2 (Or.inr ⟨h1, h2, h3⟩), h4⟩
          · rintro ⟨r, h1, h2⟩
            rcases (a3 r).1 h1 with h3 | ⟨h3, h4, h5⟩
            · exact Or.inl ⟨r, h3, h2⟩
            · exact Or.inr ⟨r, h3, h4, h5, h2⟩
      have hle := pts_le hC.nodup fun r hr => (hC.pts r hr).2.2.1
      rw [hs, List.length_cons] at hm
      obtain ⟨s', b1, b2, b3⟩ := remLoop_spec n t hC (by omega)
      exact ⟨s', by rw [a1, Option.bind_some]; exact b1, b2, b3⟩

/-- What one call of `remove_small_edge` does. -/
theorem removeSmall_spec {c : Cfg} {edge fl : Nat × Nat → Bool} {p : Nat × Nat} (hp : p ∈ pixels c.w c.h) (hi : Inner c.w c.h p) (he : edge p = true)
    (hf : fl p = false) (hm : c.mag p < c.keep) :
    ∃ s : Rem, Coll c edge fl p s ∧ s.stack = [] ∧ removeSmall c edge fl p =
      some (if s.high = false ∧ s.pts.length ≤ c.noise then fun q => if q ∈ s.pts then false else edge q else edge, s.flag) := by
  have h0 : Coll c edge fl p { flag := put fl p true, stack := [p], pts := [p], high := false } := by
    refine ⟨?_, ?_, List.nodup_singleton p, ?_, ?_, ?_, List.mem_singleton.2 rfl⟩
    · intro q
      dsimp only
      unfold put
      rw [List.mem_singleton]
      split
      · rename_i e; simp [e]
      · rename_i e; simp [e]
    · intro q hq
      rw [List.mem_singleton.1 hq]
      exact ⟨hf, he, hp, ReflTransGen.refl⟩
    · intro q hq
      rw [List.mem_singleton.1 hq]
      exact ⟨List.mem_singleton.2 rfl, hi⟩
    · exact fun q hq _ => Or.inl hq
    · constructor
      · intro h; simp at h
      · rintro ⟨q, hq, h⟩
        rw [List.mem_singleton.1 hq] at h
        omega
  obtain ⟨s, h1, h2, h3⟩ := remLoop_spec (c.w * c.h + 2) _ h0 (by simp only [List.length_singleton]; omega)
  exact ⟨s, h2, h3, by unfold removeSmall; rw [h1]; rfl⟩

/-- The invariant of the removal. -/
structure RemInv (c : Cfg) (E : Nat × Nat → Bool) (done : List (Nat × Nat)) (s : (Nat × Nat → Bool) × (Nat × Nat → Bool)) : Prop where
  sub : ∀ q, s.1 q = true → E q = true
  off : ∀ q ∈ pixels c.w c.h, E q = true → FreeEdge c.w c.h (fun r => E r = true) q → s.2 q = false →
    ∀ r, EdgeConn c.w c.h (fun r => E r = true) q r → s.2 r = false ∧ s.1 r = true
  on : ∀ q ∈ pixels c.w c.h, E q = true → FreeEdge c.w c.h (fun r => E r = true) q → s.2 q = true →
    (s.1 q = true ↔ KeptEdge c.w c.h (fun r => E r = true) c.mag c.keep c.noise q)
  scan : ∀ q ∈ done, E q = true → FreeEdge c.w c.h (fun r => E r = true) q → c.mag q < c.keep → s.2 q = true

theorem conn_pix {w h : Nat} {E : Nat × Nat → Prop} {a b : Nat × Nat} (ha : a ∈ pixels w h) (hc : EdgeConn w h E a b) : b ∈ pixels w h := by
  induction hc with
  | refl => exact ha
  | tail _ h _ => exact h.1.2.1

theorem free_conn {w h : Nat} {E : Nat × Nat → Prop} {a b : Nat × Nat} (hf : FreeEdge w h E a) (hc : EdgeConn w h E a b) : FreeEdge w h E b :=
  fun q hq => hf q (ReflTransGen.trans hc hq)

theorem size_conn {w h : Nat} {E : Nat × Nat → Prop} {a b : Nat × Nat} (ha : E a) (hc : EdgeConn w h E a b) : edgeSize w h E a = edgeSize w h E b := by
  classical
  unfold edgeSize
  congr 1
  ext q
  rw [Finset.mem_filter, Finset.mem_filter]
  exact and_congr_right fun _ => ⟨fun h => ReflTransGen.trans (conn_symm ha hc) h, fun h => ReflTransGen.trans hc h⟩

theorem kept_conn {w h : Nat} {E : Nat × Nat → Prop} {mag : Nat × Nat → Int} {k : Int} {n : Nat} {a b : Nat × Nat} (ha : E a) (hc : EdgeConn w h E a b) :
    KeptEdge w h E mag k n a ↔ KeptEdge w h E mag k n b := by
  unfold KeptEdge
  rw [size_conn ha hc]
  refine or_congr_left ⟨?_, ?_⟩
  · rintro ⟨q, h1, h2⟩
    exact ⟨q, ReflTransGen.trans (conn_symm ha hc) h1, h2⟩
  · rintro ⟨q, h1, h2⟩
    exact ⟨q, ReflTransGen.trans hc h1, h2⟩

theorem RemInv.step {c : Cfg} {E : Nat × Nat → Bool} {done : List (Nat × Nat)} {s : (Nat × Nat → Bool) × (Nat × Nat → Bool)} (h : RemInv c E done s)
    {p : Nat × Nat} (hp : p ∈ pixels c.w c.h) (hi : Inner c.w c.h p) :
    ∃ s', (if s.1 p = true ∧ c.mag p < c.keep ∧ s.2 p = false then removeSmall c s.1 s.2 p else some s) = some s' ∧ RemInv c E (p :: done) s' := by
  classical
  by_cases hc : s.1 p = true ∧ c.mag p < c.keep ∧ s.2 p = false
  · rw [if_pos hc]
    obtain ⟨t, h1, h2, h3⟩ := removeSmall_spec hp hi hc.1 hc.2.2 hc.2.1
    have hEp := h.sub p hc.1
    have hin : ∀ q ∈ t.pts, EdgeConn c.w c.h (fun r => E r = true) p q := fun q hq => conn_mono (fun r hr => h.sub r hr) (h1.pts q hq).2.2.2
    -- the edge of `p`, when it does not touch the border
    have hall : FreeEdge c.w c.h (fun r => E r = true) p → ∀ r, EdgeConn c.w c.h (fun r => E r = true) p r → r ∈ t.pts := by
      intro hfree r hr
      induction hr with
      | refl => exact h1.start
      | tail g1 g2 ih =>
        rename_i b d
        obtain ⟨k1, k2⟩ := h.off p hp hEp hfree hc.2.2 d (ReflTransGen.tail g1 g2)
        rcases h1.closed b ih (hfree b g1) with e | e
        · rw [h2] at e; cases e
        · rcases (h1.flag d).1 (e d g2.1 k2) with e | e
          · rw [k1] at e; cases e
          · exact e
    have hsize : FreeEdge c.w c.h (fun r => E r = true) p → t.pts.length = edgeSize c.w c.h (fun r => E r = true) p := by
      intro hfree
      unfold edgeSize
      rw [← List.toFinset_card_of_nodup h1.nodup]
      congr 1
      ext q
      rw [List.mem_toFinset, Finset.mem_filter]
      exact ⟨fun hq => ⟨(h1.pts q hq).2.2.1, hin q hq⟩, fun hq => hall hfree q hq.2⟩
    have hkept : FreeEdge c.w c.h (fun r => E r = true) p →
        ((t.high = false ∧ t.pts.length ≤ c.noise) ↔ ¬KeptEdge c.w c.h (fun r => E r = true) c.mag c.keep c.noise p) := by
      intro hfree
      unfold KeptEdge
      rw [← hsize hfree]
      constructor
      · rintro ⟨g1, g2⟩ (⟨q, g3, g4⟩ | g3)
        · rw [h1.high.2 ⟨q, hall hfree q g3, g4⟩] at g1; cases g1
        · omega
      · intro g
        constructor
        · by_contra g1
          obtain ⟨q, g2, g3⟩ := h1.high.1 (by simpa using g1)
          exact g (Or.inl ⟨q, hin q g2, g3⟩)
        · by_contra g1
          exact g (Or.inr (by omega))
    refine ⟨_, h3, ?_, ?_, ?_, ?_⟩
    · intro q hq
      dsimp only at hq
      split at hq
      · dsimp only at hq
        split at hq
        · cases hq
        · exact h.sub q hq
      · exact h.sub q hq
    · intro q hq hE hfree hfl r hr
      dsimp only at hfl ⊢
      have hqf : s.2 q = false ∧ q ∉ t.pts := by
        constructor
        · by_contra g
          rw [(h1.flag q).2 (Or.inl (by simpa using g))] at hfl; cases hfl
        · intro g
          rw [(h1.flag q).2 (Or.inr g)] at hfl; cases hfl
      obtain ⟨k1, k2⟩ := h.off q hq hE hfree hqf.1 r hr
      have hrn : r ∉ t.pts := by
        intro g
        have hpq := ReflTransGen.trans (hin r g) (conn_symm hE hr)
        have hfp := free_conn hfree (conn_symm hEp hpq)
        exact hqf.2 (hall hfp q hpq)
      constructor
      · by_contra g
        rcases (h1.flag r).1 (by simpa using g) with e | e
        · rw [k1] at e; cases e
        · exact hrn e
      · split
        · dsimp only; rw [if_neg hrn]; exact k2
        · exact k2
    · intro q hq hE hfree hfl
      dsimp only at hfl ⊢
      by_cases hqt : q ∈ t.pts
      · have hpq := hin q hqt
        have hfp := free_conn hfree (conn_symm hEp hpq)
        rw [← kept_conn (a := p) hEp hpq]
        have hk := hkept hfp
        obtain ⟨_, k2⟩ := h.off p hp hEp hfp hc.2.2 q hpq
        by_cases g : t.high = false ∧ t.pts.length ≤ c.noise
        · rw [if_pos g, if_pos hqt]
          exact ⟨fun e => absurd e (by simp), fun e => absurd e (hk.1 g)⟩
        · rw [if_neg g]
          exact ⟨fun _ => not_not.1 fun e => g (hk.2 e), fun _ => k2⟩
      · have hs2 : s.2 q = true := by
          rcases (h1.flag q).1 hfl with e | e
          · exact e
          · exact absurd e hqt
        rw [← h.on q hq hE hfree hs2]
        split
        · dsimp only; rw [if_neg hqt]
        · exact Iff.rfl
    · intro q hq hE hfree hm
      rcases List.mem_cons.1 hq with rfl | hq
      · exact (h1.flag q).2 (Or.inr h1.start)
      · exact (h1.flag q).2 (Or.inl (h.scan q hq hE hfree hm))
  · rw [if_neg hc]
    refine ⟨s, rfl, h.sub, h.off, h.on, ?_⟩
    intro q hq hE hfree hm
    rcases List.mem_cons.1 hq with rfl | hq
    · by_contra g
      have g : s.2 q = false := by simpa using g
      exact hc ⟨(h.off q hp hE hfree g q ReflTransGen.refl).2, hm, g⟩
    · exact h.scan q hq hE hfree hm

theorem removeAll_spec {c : Cfg} {E : Nat × Nat → Bool} : ∀ (l done : List (Nat × Nat)) (s : (Nat × Nat → Bool) × (Nat × Nat → Bool)),
    (∀ p ∈ l, p ∈ pixels c.w c.h ∧ Inner c.w c.h p) → RemInv c E done s →
    ∃ s' done', removeAll c l s = some s' ∧ RemInv c E done' s' ∧ (∀ q, q ∈ done' ↔ q ∈ l ∨ q ∈ done)
  | [], done, s, _, h => ⟨s, done, rfl, h, by simp⟩
  | p :: l, done, s, hl, h => by
    obtain ⟨h1, h2⟩ := hl p (List.mem_cons_self ..)
    obtain ⟨s', h3, h4⟩ := h.step h1 h2
    obtain ⟨s'', d, h5, h6, h7⟩ := removeAll_spec l (p :: done) s' (fun q hq => hl q (List.mem_cons_of_mem _ hq)) h4
    refine ⟨s'', d, by rw [removeAll, h3, Option.bind_some]; exact h5, h6, ?_⟩
    intro q
    rw [h7 q, List.mem_cons, List.mem_cons]
    constructor
    · rintro (h | h | h)
      · exact Or.inl (Or.inr h)
      · exact Or.inl (Or.inl h)
      · exact Or.inr h
    · rintro ((h | h) | h)
      · exact Or.inr (Or.inl h)
      · exact Or.inl h
      · exact Or.inr (Or.inr h)

theorem mem_inner {c : Cfg} {p : Nat × Nat} : p ∈ innerPixels c ↔ Inner c.w c.h p := by
  obtain ⟨x, y⟩ := p
  unfold innerPixels Inner
  simp only [List.mem_flatMap, List.mem_map, List.mem_range, Prod.mk.injEq]
  constructor
  · rintro ⟨a, h1, b, h2, rfl, rfl⟩
    omega
  · intro h
    exact ⟨y - 1, by omega, x - 1, by omega, by omega, by omega⟩

/-- The removal: it ends, only removes pixels, and of the edges apart from the border it keeps exactly those to be kept. -/
theorem remove_spec (c : Cfg) (E : Nat × Nat → Bool) : ∃ s, removeAll c (innerPixels c) (E, fun _ => false) = some s ∧
    (∀ q, s.1 q = true → E q = true) ∧
    ∀ q ∈ pixels c.w c.h, E q = true → FreeEdge c.w c.h (fun r => E r = true) q →
      (s.1 q = true ↔ KeptEdge c.w c.h (fun r => E r = true) c.mag c.keep c.noise q) := by
  have h0 : RemInv c E [] (E, fun _ => false) := by
    refine ⟨fun q hq => hq, ?_, ?_, ?_⟩
    · intro q _ hE _ _ r hr
      exact ⟨rfl, conn_E (E := fun r => E r = true) hE hr⟩
    · intro q _ _ _ h
      cases h
    · intro q hq
      cases hq
  obtain ⟨s, d, h1, h2, h3⟩ := removeAll_spec (innerPixels c) [] _ (fun p hp => by
    have hi := mem_inner.1 hp
    exact ⟨mem_pixels.2 ⟨by have := hi.2.1; omega, by have := hi.2.2.2; omega⟩, hi⟩) h0
  refine ⟨s, h1, h2.sub, ?_⟩
  intro q hq hE hfree
  by_cases hf : s.2 q = true
  · exact h2.on q hq hE hfree hf
  · have hf : s.2 q = false := by simpa using hf
    obtain ⟨_, k2⟩ := h2.off q hq hE hfree hf q ReflTransGen.refl
    refine ⟨fun _ => Or.inl ⟨q, ReflTransGen.refl, ?_⟩, fun _ => k2⟩
    by_contra hm
    have := h2.scan q ((h3 q).2 (Or.inl (mem_inner.2 (hfree q ReflTransGen.refl)))) hE hfree (by omega)
    rw [hf] at this; cases this

end Verif.AutoCanny
