import Verif.Proof.Canny

/-!
# Edge detector: the loop over the rows, the tracking and the result
-/

namespace Verif.Canny

open Verif.Spec
open Relation (ReflTransGen)

/-- The stack never has to grow by more than a half for one row. -/
def Img.Roomy (I : Img) : Prop := I.cols + 1 ≤ max 1024 (I.rows * I.cols / 10)

/-- The state after the rows up to `i`. -/
structure AfterRow (I : Img) (i : Nat) (s : St) : Prop where
  a : s.a = line I i
  b : s.b = line I (i + 1)
  core : Core I (Done I (i + 1) 0) s.map s.stack
  bord : Border I i s.map
  len : s.stack.length ≤ s.cap
  cols : I.cols + 1 ≤ s.cap
  cap : 1024 ≤ s.cap

theorem Core.congr {I : Img} {D D' : Nat × Nat → Prop} {map map' : Nat → Nat} {stack : List Nat} (h : Core I D map stack) (hD : ∀ p, D' p ↔ D p)
    (hm : ∀ p, D p → map' (enc I p) = map (enc I p)) : Core I D' map' stack := by
  have e : D' = D := funext fun p => propext (hD p)
  subst e
  refine ⟨h.pix, ?_, ?_, ?_, ?_, h.nodup, ?_⟩
  · intro p hp; rw [hm p hp]; exact h.non p hp
  · intro p hp; rw [hm p hp]; exact h.can p hp
  · intro p hp; rw [hm p hp]; exact h.two p hp
  · intro k hk
    obtain ⟨p, h1, rfl, h3⟩ := h.stk k hk
    exact ⟨p, h1, rfl, by rw [hm p h1]; exact h3⟩
  · intro p hp hc hh
    obtain ⟨q, h1, h2, h3⟩ := h.strong p hp hc hh
    exact ⟨q, h1, by rw [hm q h1]; exact h2, h3⟩

theorem row_zero (I : Img) (b c : Nat → Int) (junk : Nat → Nat) (hr : I.Roomy) :
    ∃ s, row I 0 { a := fun _ => 0, b := b, c := c, map := borders I junk, stack := [], cap := cap0 I } = some s ∧ AfterRow I 0 s := by
  have hc : cap0 I = max 1024 (I.rows * I.cols / 10) := by unfold cap0; rw [Nat.mul_comm]
  refine ⟨_, by unfold row; rw [if_pos rfl], rfl, rfl, ?_, ?_, Nat.zero_le _, ?_, ?_⟩
  · have hn : ∀ p, ¬Done I (0 + 1) 0 p := by rintro p ⟨_, h | h⟩ <;> omega
    exact ⟨fun p h => absurd h (hn p), fun p h => absurd h (hn p), fun p h => absurd h (hn p), fun p h => absurd h (hn p),
      (by intro k h; simp at h), List.nodup_nil, fun p h => absurd h (hn p)⟩
  · intro r c hc hr h
    show borders I junk (cell I r c) = 1
    unfold borders
    by_cases h0 : r = 0
    · subst h0
      rw [if_pos (by unfold cell; omega)]
    · have h1 : r = I.rows + 1 := by omega
      subst h1
      split
      · rfl
      · rw [if_pos ⟨by unfold cell; omega, cell_lt hc (by omega)⟩]
  · show I.cols + 1 ≤ cap0 I
    rw [hc]; exact hr
  · show 1024 ≤ cap0 I
    unfold cap0; omega

theorem row_succ {I : Img} (hI : I.Small) {i : Nat} {s : St} (hi : i < I.rows) (h : AfterRow I i s) :
    ∃ s', row I (i + 1) s = some s' ∧ AfterRow I (i + 1) s' := by
  have hline : fill I (i + 1) = line I (i + 2) := by unfold line; rw [if_neg (by omega)]; rfl
  have hl := h.len
  have hcs := h.cols
  have hcp := h.cap
  have hg : 2 * s.stack.length + I.cols ≤ 2 * grow s.stack.length I.cols s.cap ∧ s.cap ≤ grow s.stack.length I.cols s.cap := by
    unfold grow; split <;> omega
  have hi0 : I.step * (i + 1) = cell I (i + 1) 0 := by unfold cell; omega
  have hi1 : I.step * (i + 1) + 1 + I.cols = cell I (i + 1) (I.cols + 1) := by unfold cell; omega
  have hne : ∀ p c, c = 0 ∨ c = I.cols + 1 → Done I (i + 1) 0 p → enc I p ≠ cell I (i + 1) c := by
    intro p c hc hp e
    have hq := mem_pixels.1 hp.1
    obtain ⟨h1, h2⟩ := cell_inj (by unfold Img.step; omega) (by unfold Img.step; omega) e
    omega
  have hin : InRow I s.stack.length (i + 1) 0
      { map := upd (upd s.map (I.step * (i + 1)) 1) (I.step * (i + 1) + 1 + I.cols) 1, stack := s.stack, flag := false } := by
    refine ⟨h.core.congr (fun _ => Iff.rfl) ?_, ?_, (by intro hf; simp at hf), (by simp)⟩
    · intro p hp
      dsimp only
      rw [hi1, hi0]
      unfold upd
      rw [if_neg (hne p _ (Or.inr rfl) hp), if_neg (hne p _ (Or.inl rfl) hp)]
    · intro r c hc hr hb
      dsimp only
      rw [hi1, hi0]
      unfold upd
      split
      · rfl
      · rename_i n1
        split
        · rfl
        · rename_i n2
          refine h.bord r c hc hr ?_
          by_cases e : r = i + 1
          · subst e
            rcases hb with hb | hb | ⟨rfl | rfl, _⟩
            · exact Or.inl hb
            · exact Or.inr (Or.inl hb)
            · exact absurd rfl n2
            · exact absurd rfl n1
          · rcases hb with hb | hb | ⟨hb, _⟩
            · exact Or.inl hb
            · exact Or.inr (Or.inl hb)
            · exact Or.inr (Or.inr ⟨hb, by omega⟩)
  obtain ⟨r, h1, h2⟩ := scanLoop_spec hI (cap := grow s.stack.length I.cols s.cap) (by omega : 1 ≤ i + 1) (by omega) hg.1 I.cols 0 _ (by omega) hin
  refine ⟨_, by
    unfold row
    rw [if_neg (by omega)]
    dsimp only
    rw [hline, h.a, h.b, show line I i = line I (i + 1 - 1) from rfl, h1]; rfl, ?_⟩
  refine ⟨rfl, rfl, ?_, h2.bord, ?_, ?_, ?_⟩
  · refine h2.core.congr ?_ (fun _ _ => rfl)
    intro p
    unfold Done
    constructor
    · rintro ⟨h3, h4⟩
      have := (mem_pixels.1 h3).1
      exact ⟨h3, by omega⟩
    · rintro ⟨h3, h4⟩
      exact ⟨h3, by omega⟩
  · have := h2.len
    dsimp only
    split at this <;> omega
  · dsimp only; omega
  · dsimp only; omega

theorem rowLoop_spec {I : Img} (hI : I.Small) : ∀ (k i : Nat) (s : St), i + k = I.rows → AfterRow I i s →
    ∃ s', rowLoop I k (i + 1) s = some s' ∧ AfterRow I I.rows s'
  | 0, i, s, hk, h => ⟨s, rfl, by have : i = I.rows := by omega
                                  rw [← this]; exact h⟩
  | k + 1, i, s, hk, h => by
    obtain ⟨s', h1, h2⟩ := row_succ hI (by omega) h
    obtain ⟨s'', h3, h4⟩ := rowLoop_spec hI k (i + 1) s' (by omega) h2
    exact ⟨s'', by rw [rowLoop, h1]; exact h3, h4⟩

/-! ## The tracking -/

/-- The entries that are 0. -/
def zeros (size : Nat) (map : Nat → Nat) : Nat := ((Finset.range size).filter fun k => map k = 0).card

theorem zeros_upd {size : Nat} {map : Nat → Nat} {p : Nat} (hp : p < size) (h0 : map p = 0) : zeros size (upd map p 2) + 1 = zeros size map := by
  unfold zeros
  have : ((Finset.range size).filter fun k => upd map p 2 k = 0) = ((Finset.range size).filter fun k => map k = 0).erase p := by
    ext k
    rw [Finset.mem_erase, Finset.mem_filter, Finset.mem_filter]
    by_cases e : k = p
    · simp [upd, e]
    · simp [upd, e]
  rw [this]
  exact Finset.card_erase_add_one (Finset.mem_filter.2 ⟨Finset.mem_range.2 hp, h0⟩)

/-- What the pushes do. -/
theorem pushAll_spec (size cap : Nat) : ∀ (l : List Nat) (map : Nat → Nat) (st : List Nat), (∀ k ∈ l, k < size) → st.length + l.length ≤ cap →
    ∃ map' st', pushAll size cap l (map, st) = some (map', st') ∧ (∀ k, map' k = if k ∈ l ∧ map k = 0 then 2 else map k) ∧
      (∀ k, k ∈ st' ↔ k ∈ st ∨ (k ∈ l ∧ map k = 0)) ∧ st'.length + zeros size map' = st.length + zeros size map ∧ st'.length ≤ cap
  | [], map, st, _, hc => ⟨map, st, rfl, fun k => by simp, fun k => by simp, rfl, by simpa using hc⟩
  | p :: l, map, st, hl, hc => by
    have hp := hl p (List.mem_cons_self ..)
    rw [List.length_cons] at hc
    rw [pushAll]
    unfold pushIf
    rw [if_pos hp]
    by_cases h0 : map p = 0
    · rw [if_pos h0, if_pos (by dsimp only; omega), Option.bind_some]
      obtain ⟨map', st', h1, h2, h3, h4, h5⟩ := pushAll_spec size cap l (upd map p 2) (p :: st) (fun k hk => hl k (List.mem_cons_of_mem _ hk))
        (by rw [List.length_cons]; omega)
      refine ⟨map', st', h1, ?_, ?_, ?_, h5⟩
      · intro k
        rw [h2 k]
        unfold upd
        by_cases e : k = p
        · subst e; simp [h0]
        · simp [e]
      · intro k
        rw [h3 k]
        unfold upd
        by_cases e : k = p
        · subst e; simp [h0]
        · simp [e]
      · rw [h4, List.length_cons]
        have := zeros_upd hp h0
        omega
    · rw [if_neg h0, Option.bind_some]
      obtain ⟨map', st', h1, h2, h3, h4, h5⟩ := pushAll_spec size cap l map st (fun k hk => hl k (List.mem_cons_of_mem _ hk)) (by omega)
      refine ⟨map', st', h1, ?_, ?_, h4, h5⟩
      · intro k
        rw [h2 k]
        by_cases e : k = p
        · subst e; simp [h0]
        · simp [e]
      · intro k
        rw [h3 k]
        by_cases e : k = p
        · subst e; simp [h0]
        · simp [e]

/-- The invariant of the tracking. -/
structure Tracked (I : Img) (map : Nat → Nat) (stack : List Nat) : Prop where
  bord : Border I I.rows map
  non : ∀ p ∈ pixels I.cols I.rows, ¬I.grad.Candidate I.low p → map (enc I p) = 1
  can : ∀ p ∈ pixels I.cols I.rows, I.grad.Candidate I.low p → map (enc I p) = 0 ∨ map (enc I p) = 2
  sound : ∀ p ∈ pixels I.cols I.rows, map (enc I p) = 2 → I.grad.IsEdge I.low I.high p
  seed : ∀ p, I.grad.Candidate I.low p → I.high < I.mag p.2 p.1 → ∃ q ∈ pixels I.cols I.rows, map (enc I q) = 2 ∧ I.grad.Reach I.low q p
  front : ∀ p ∈ pixels I.cols I.rows, map (enc I p) = 2 → enc I p ∈ stack ∨
    ∀ b, Adj8 I.cols I.rows p b → I.grad.Candidate I.low b → map (enc I b) = 2
  stk : ∀ k ∈ stack, ∃ p ∈ pixels I.cols I.rows, k = enc I p ∧ map k = 2

/-- Every entry around a pixel belongs to a pixel beside it or to the border. -/
theorem around_cases {I : Img} {p : Nat × Nat} (hp : p ∈ pixels I.cols I.rows) {k : Nat} (hk : k ∈ around I.step (enc I p)) :
    ∃ r c, k = cell I r c ∧ c < I.step ∧ r < I.rows + 2 ∧ (r = 0 ∨ r = I.rows + 1 ∨ c = 0 ∨ c = I.cols + 1 ∨ Adj8 I.cols I.rows p (c - 1, r - 1)) := by
  obtain ⟨x, y⟩ := p
  rw [mem_pixels] at hp
  dsimp only at hp
  have hs : I.step = I.cols + 2 := rfl
  have key : ∀ r c, c < I.step → r < I.rows + 2 → (r ≠ y + 1 ∨ c ≠ x + 1) → r ≤ y + 2 → y ≤ r → c ≤ x + 2 → x ≤ c → k = cell I r c →
      ∃ r c, k = cell I r c ∧ c < I.step ∧ r < I.rows + 2 ∧
        (r = 0 ∨ r = I.rows + 1 ∨ c = 0 ∨ c = I.cols + 1 ∨ Adj8 I.cols I.rows (x, y) (c - 1, r - 1)) := by
    intro r c h1 h2 h3 h4 h5 h6 h7 e
    refine ⟨r, c, e, h1, h2, ?_⟩
    by_cases hb : r = 0 ∨ r = I.rows + 1 ∨ c = 0 ∨ c = I.cols + 1
    · omega
    · refine Or.inr (Or.inr (Or.inr (Or.inr ⟨mem_pixels.2 hp, mem_pixels.2 ⟨by dsimp only; omega, by dsimp only; omega⟩, ?_, ?_⟩)))
      · intro e
        have e1 := congrArg Prod.fst e
        have e2 := congrArg Prod.snd e
        dsimp only at e1 e2
        omega
      · dsimp only; omega
  have m1 : I.step * (y + 1) = I.step * y + I.step := by rw [Nat.mul_add, Nat.mul_one]
  have m2 : I.step * (y + 2) = I.step * y + 2 * I.step := by rw [Nat.mul_add]; omega
  unfold around enc cell at hk
  unfold cell at key
  simp only [List.mem_cons, List.not_mem_nil, or_false] at hk
  unfold cell
  rcases hk with e | e | e | e | e | e | e | e
  · exact key (y + 1) x (by omega) (by omega) (by omega) (by omega) (by omega) (by omega) (by omega) (by omega)
  · exact key (y + 1) (x + 2) (by omega) (by omega) (by omega) (by omega) (by omega) (by omega) (by omega) (by omega)
  · exact key y x (by omega) (by omega) (by omega) (by omega) (by omega) (by omega) (by omega) (by omega)
  · exact key y (x + 1) (by omega) (by omega) (by omega) (by omega) (by omega) (by omega) (by omega) (by omega)
  · exact key y (x + 2) (by omega) (by omega) (by omega) (by omega) (by omega) (by omega) (by omega) (by omega)
  · exact key (y + 2) x (by omega) (by omega) (by omega) (by omega) (by omega) (by omega) (by omega) (by omega)
  · exact key (y + 2) (x + 1) (by omega) (by omega) (by omega) (by omega) (by omega) (by omega) (by omega) (by omega)
  · exact key (y + 2) (x + 2) (by omega) (by omega) (by omega) (by omega) (by omega) (by omega) (by omega) (by omega)

/-- Every pixel beside a pixel is among the entries around it. -/
theorem around_mem {I : Img} {p b : Nat × Nat} (h : Adj8 I.cols I.rows p b) : enc I b ∈ around I.step (enc I p) := by
  obtain ⟨x, y⟩ := p
  obtain ⟨u, v⟩ := b
  obtain ⟨h1, h2, h3, h4⟩ := h
  rw [mem_pixels] at h1 h2
  have hne : u ≠ x ∨ v ≠ y := by
    by_contra hc
    exact h3 (Prod.ext (by dsimp only; omega) (by dsimp only; omega))
  dsimp only at h1 h2 h4
  have hs : I.step = I.cols + 2 := rfl
  have m1 : I.step * (y + 1) = I.step * y + I.step := by rw [Nat.mul_add, Nat.mul_one]
  have m2 : I.step * (y + 2) = I.step * y + 2 * I.step := by rw [Nat.mul_add]; omega
  unfold around enc cell
  simp only [List.mem_cons, List.not_mem_nil, or_false]
  have hv : v + 1 = y ∨ v = y ∨ v = y + 1 := by omega
  rcases hv with e | e | e
  · have m0 : I.step * (v + 1) = I.step * y := by rw [e]
    omega
  · subst e; omega
  · subst e
    have : I.step * (y + 1 + 1) = I.step * y + 2 * I.step := m2
    omega

theorem around_lt {I : Img} {p : Nat × Nat} (hp : p ∈ pixels I.cols I.rows) {k : Nat} (hk : k ∈ around I.step (enc I p)) : k < I.step * (I.rows + 2) := by
  obtain ⟨r, c, rfl, h1, h2, _⟩ := around_cases hp hk
  exact cell_lt h1 h2

theorem reach_pix {G : Gradient} {low : Int} {q p : Nat × Nat} (hq : q ∈ pixels G.w G.h) (h : G.Reach low q p) : p ∈ pixels G.w G.h := by
  induction h with
  | refl => exact hq
  | tail _ h _ => exact h.1.2.1

theorem IsEdge.next {G : Gradient} {low high : Int} {p b : Nat × Nat} (h : G.IsEdge low high p) (ha : Adj8 G.w G.h p b) (hb : G.Candidate low b) :
    G.IsEdge low high b := by
  obtain ⟨q, h1, h2, h3⟩ := h
  exact ⟨q, h1, h2, Reach.step h3 ha hb⟩

theorem Tracked.step {I : Img} {map map' : Nat → Nat} {rest st' : List Nat} {p : Nat × Nat} (hp : p ∈ pixels I.cols I.rows)
    (h : Tracked I map (enc I p :: rest)) (hm : ∀ k, map' k = if k ∈ around I.step (enc I p) ∧ map k = 0 then 2 else map k)
    (hs : ∀ k, k ∈ st' ↔ k ∈ rest ∨ (k ∈ around I.step (enc I p) ∧ map k = 0)) : Tracked I map' st' := by
  have h2p : map (enc I p) = 2 := by
    obtain ⟨q, _, _, h3⟩ := h.stk _ (List.mem_cons_self ..)
    exact h3
  have keep : ∀ k, map k ≠ 0 → map' k = map k := fun k hk => by rw [hm k, if_neg (fun e => hk e.2)]
  have new : ∀ k, k ∈ around I.step (enc I p) → map k = 0 → ∃ b, k = enc I b ∧ Adj8 I.cols I.rows p b ∧ I.grad.Candidate I.low b := by
    intro k hk h0
    obtain ⟨r, c, rfl, h1, h2, h3⟩ := around_cases hp hk
    have hb : ¬(r = 0 ∨ r = I.rows + 1 ∨ ((c = 0 ∨ c = I.cols + 1) ∧ r ≤ I.rows)) := fun e => by
      have := h.bord r c h1 h2 e
      omega
    have ha : Adj8 I.cols I.rows p (c - 1, r - 1) := by
      rcases h3 with e | e | e | e | e
      · omega
      · omega
      · omega
      · omega
      · exact e
    have he : cell I r c = enc I (c - 1, r - 1) := by
      unfold enc
      dsimp only
      rw [show r - 1 + 1 = r by omega, show c - 1 + 1 = c by omega]
    refine ⟨_, he, ha, ?_⟩
    by_contra hn
    have := h.non _ ha.2.1 hn
    rw [← he] at this
    omega
  have grown : ∀ k, map k = 2 → map' k = 2 := fun k hk => by rw [keep k (by omega)]; exact hk
  refine ⟨?_, ?_, ?_, ?_, ?_, ?_, ?_⟩
  · intro r c h1 h2 h3
    have := h.bord r c h1 h2 h3
    rw [keep _ (by omega)]; exact this
  · intro q hq hn
    have := h.non q hq hn
    rw [keep _ (by omega)]; exact this
  · intro q hq hc
    rw [hm]
    split
    · exact Or.inr rfl
    · exact h.can q hq hc
  · intro q hq h2
    rw [hm] at h2
    by_cases e : enc I q ∈ around I.step (enc I p) ∧ map (enc I q) = 0
    · obtain ⟨b, h3, h4, h5⟩ := new _ e.1 e.2
      rw [enc_inj hq h4.2.1 h3]
      exact IsEdge.next (h.sound p hp h2p) h4 h5
    · rw [if_neg e] at h2
      exact h.sound q hq h2
  · intro q hc hh
    obtain ⟨s, h1, h2, h3⟩ := h.seed q hc hh
    exact ⟨s, h1, grown _ h2, h3⟩
  · intro q hq h2
    by_cases e : enc I q ∈ around I.step (enc I p) ∧ map (enc I q) = 0
    · exact Or.inl ((hs _).2 (Or.inr e))
    · rw [hm, if_neg e] at h2
      rcases h.front q hq h2 with h3 | h3
      · rcases List.mem_cons.1 h3 with h4 | h4
        · refine Or.inr fun b hb hc => ?_
          have hqp := enc_inj hq hp h4
          subst hqp
          rw [hm]
          rcases h.can b hb.2.1 hc with h5 | h5
          · rw [if_pos ⟨around_mem hb, h5⟩]
          · rw [if_neg (by omega)]; exact h5
        · exact Or.inl ((hs _).2 (Or.inl h4))
      · exact Or.inr fun b hb hc => grown _ (h3 b hb hc)
  · intro k hk
    rcases (hs k).1 hk with h1 | h1
    · obtain ⟨q, h2, h3, h4⟩ := h.stk k (List.mem_cons_of_mem _ h1)
      exact ⟨q, h2, h3, grown _ h4⟩
    · obtain ⟨b, h2, h3, h4⟩ := new k h1.1 h1.2
      exact ⟨b, h3.2.1, h2, by rw [hm, if_pos h1]⟩

theorem track_spec {I : Img} : ∀ (fuel cap : Nat) (map : Nat → Nat) (stack : List Nat), Tracked I map stack → stack.length ≤ cap → 1024 ≤ cap →
    stack.length + zeros (I.step * (I.rows + 2)) map < fuel →
    ∃ map', track (I.step * (I.rows + 2)) I.step fuel cap (map, stack) = some map' ∧ Tracked I map' []
  | 0, _, _, _, _, _, _, hf => by omega
  | fuel + 1, cap, map, stack, h, hl, hc, hf => by
    cases stack with
    | nil => exact ⟨map, rfl, h⟩
    | cons k rest =>
      obtain ⟨p, hp, rfl, _⟩ := h.stk k (List.mem_cons_self ..)
      rw [List.length_cons] at hl hf
      have hg : rest.length + 8 ≤ grow (enc I p :: rest).length 8 cap ∧ cap ≤ grow (enc I p :: rest).length 8 cap := by
        unfold grow
        rw [List.length_cons]
        split <;> omega
      obtain ⟨map', st', h1, h2, h3, h4, h5⟩ := pushAll_spec (I.step * (I.rows + 2)) (grow (enc I p :: rest).length 8 cap)
        (around I.step (enc I p)) map rest (fun k hk => around_lt hp hk) hg.1
      obtain ⟨m, h6, h7⟩ := track_spec fuel (grow (enc I p :: rest).length 8 cap) map' st' (Tracked.step hp h h2 h3) h5 (by omega) (by omega)
      refine ⟨m, ?_, h7⟩
      rw [track]
      dsimp only
      rw [h1, Option.bind_some]
      exact h6

/-- The tracking starts with its invariant. -/
theorem AfterRow.tracked {I : Img} {s : St} (h : AfterRow I I.rows s) : Tracked I s.map s.stack := by
  have hd : ∀ p, p ∈ pixels I.cols I.rows ↔ Done I (I.rows + 1) 0 p :=
    fun p => ⟨fun hp => ⟨hp, Or.inl (by have := (mem_pixels.1 hp).2; omega)⟩, fun hp => hp.1⟩
  refine ⟨h.bord, fun p hp => h.core.non p ((hd p).1 hp), fun p hp => h.core.can p ((hd p).1 hp), ?_, ?_, ?_, ?_⟩
  · intro p hp h2
    obtain ⟨_, h3, h4⟩ := h.core.two p ((hd p).1 hp) h2
    exact ⟨p, h4, h3, ReflTransGen.refl⟩
  · intro p hc hh
    obtain ⟨q, h1, h2⟩ := h.core.strong p ((hd p).1 hc.1) hc hh
    exact ⟨q, (hd q).2 h1, h2⟩
  · intro p hp h2
    exact Or.inl (h.core.two p ((hd p).1 hp) h2).1
  · intro k hk
    obtain ⟨p, h1, h2⟩ := h.core.stk k hk
    exact ⟨p, (hd p).2 h1, h2⟩

theorem AfterRow.measure {I : Img} {s : St} (h : AfterRow I I.rows s) :
    s.stack.length + zeros (I.step * (I.rows + 2)) s.map ≤ I.step * (I.rows + 2) := by
  have h1 : s.stack.length = s.stack.toFinset.card := (List.toFinset_card_of_nodup h.core.nodup).symm
  have hdis : Disjoint s.stack.toFinset ((Finset.range (I.step * (I.rows + 2))).filter fun k => s.map k = 0) := by
    rw [Finset.disjoint_left]
    intro k hk h0
    obtain ⟨_, _, _, h2⟩ := h.core.stk k (List.mem_toFinset.1 hk)
    have := (Finset.mem_filter.1 h0).2
    omega
  unfold zeros
  rw [h1, ← Finset.card_union_of_disjoint hdis]
  calc _ ≤ (Finset.range (I.step * (I.rows + 2))).card := by
        apply Finset.card_le_card
        intro k hk
        rcases Finset.mem_union.1 hk with hk | hk
        · obtain ⟨p, h2, rfl, _⟩ := h.core.stk k (List.mem_toFinset.1 hk)
          have := mem_pixels.1 h2.1
          exact Finset.mem_range.2 (cell_lt (by unfold Img.step; omega) (by omega))
        · exact (Finset.mem_filter.1 hk).1
    _ = _ := Finset.card_range _

/-- At the end exactly the edges are 2. -/
theorem Tracked.done {I : Img} {map : Nat → Nat} (h : Tracked I map []) {p : Nat × Nat} (hp : p ∈ pixels I.cols I.rows) :
    (I.grad.IsEdge I.low I.high p → map (enc I p) = 2) ∧ (¬I.grad.IsEdge I.low I.high p → map (enc I p) = 0 ∨ map (enc I p) = 1) := by
  have closed : ∀ q r, q ∈ pixels I.cols I.rows → map (enc I q) = 2 → I.grad.Reach I.low q r → map (enc I r) = 2 := by
    intro q r hq h2 hr
    induction hr with
    | refl => exact h2
    | tail h1 h3 ih =>
      rename_i b c
      rcases h.front b h3.1.1 ih with h4 | h4
      · cases h4
      · exact h4 c h3.1 h3.2
  constructor
  · rintro ⟨q, h1, h2, h3⟩
    obtain ⟨s, h4, h5, h6⟩ := h.seed q h1 h2
    exact closed s p h4 h5 (ReflTransGen.trans h6 h3)
  · intro hn
    by_cases hc : I.grad.Candidate I.low p
    · rcases h.can p hp hc with e | e
      · exact Or.inl e
      · exact absurd (h.sound p hp e) hn
    · exact Or.inr (h.non p hp hc)

open Classical in
/-- The edge image. -/
theorem canny_spec {I : Img} (hI : I.Small) (hr : I.Roomy) (b c : Nat → Int) (junk : Nat → Nat) :
    ∃ f, canny I b c junk = some f ∧ ∀ y x, x < I.cols → y < I.rows → f y x = if I.grad.IsEdge I.low I.high (x, y) then 255 else 0 := by
  obtain ⟨s0, h0, h1⟩ := row_zero I b c junk hr
  obtain ⟨s, h2, h3⟩ := rowLoop_spec hI I.rows 0 s0 (by omega) h1
  obtain ⟨map, h4, h5⟩ := track_spec (I.step * (I.rows + 2) + 1) s.cap s.map s.stack h3.tracked h3.len h3.cap (by have := h3.measure; omega)
  refine ⟨_, by unfold canny; rw [rowLoop, h0, Option.bind_some, h2, Option.bind_some, h4]; rfl, ?_⟩
  intro y x hx hy
  have hd := h5.done (p := (x, y)) (mem_pixels.2 ⟨hx, hy⟩)
  have he : I.step * (y + 1) + 1 + x = enc I (x, y) := by unfold enc cell; dsimp only; omega
  dsimp only
  rw [he]
  split
  · rename_i h; rw [hd.1 h]
  · rename_i h
    rcases hd.2 h with e | e <;> rw [e]

end Verif.Canny
