import Verif.Proof.VlFeatTree
import Verif.Spec.Report

/-!
# The VLFeat detector: recognition
-/

namespace Verif.VlFeat

open Verif.Spec
open Relation (ReflTransGen)

variable {α : Type} {e : ES} {lab : α → Nat} {c : Cfg} {nel : Nat}

/-- What recognition needs to know of the regions. -/
structure Good (e : ES) : Prop where
  lt : ∀ j < e.ner, e.parent j < e.ner
  up : ∀ j < e.ner, e.parent j ≠ j → j < e.parent j ∧ e.value j < e.value (e.parent j)

/-- The criteria of the configuration. -/
def crit (c : Cfg) (nel : Nat) : Criteria :=
  { delta := c.delta, stable := c.stable, nms := c.nms, dup := c.dup, lo := minArea c nel, hi := maxArea c nel, rnd := c.r32 }

theorem par_some {a b : Nat} : (treeE e lab).parent a = some b ↔ e.parent a = b ∧ b ≠ a := by
  show (if e.parent a = a then none else some (e.parent a)) = some b ↔ _
  split
  · next h => exact ⟨fun h' => absurd h' (by simp), fun h' => absurd (h'.1.symm.trans h) h'.2⟩
  · next h => exact ⟨fun h' => by injection h' with h'; exact ⟨h', by rw [← h']; exact h⟩, fun h' => by rw [h'.1]⟩

theorem par_none {a : Nat} : (treeE e lab).parent a = none ↔ e.parent a = a := by
  show (if e.parent a = a then none else some (e.parent a)) = none ↔ _
  split
  · next h => exact ⟨fun _ => h, fun _ => rfl⟩
  · next h => exact ⟨fun h' => absurd h' (by simp), fun h' => absurd h' h⟩

theorem Good.around (hG : Good e) {a b : Nat} (ha : a < e.ner) (h : Around (treeE e lab) a b) : b < e.ner ∧ a ≤ b ∧ (a = b ∨ e.value a < e.value b) := by
  induction h with
  | refl => exact ⟨ha, le_refl _, .inl rfl⟩
  | @tail u v _ h1 ih =>
    obtain ⟨i1, i2, i3⟩ := ih
    obtain ⟨k1, k2⟩ := par_some.1 h1
    subst k1
    have k3 := hG.up u i1 k2
    refine ⟨hG.lt u i1, by omega, .inr ?_⟩
    rcases i3 with rfl | i3 <;> omega

theorem around_total {a b b' : Nat} (h1 : Around (treeE e lab) a b) (h2 : Around (treeE e lab) a b') :
    Around (treeE e lab) b b' ∨ Around (treeE e lab) b' b :=
  Relation.ReflTransGen.total_of_right_unique (fun _ _ _ h h' => by rw [h] at h'; injection h') h1 h2

/-! ### The variation -/

theorem top_spec (hG : Good e) {lim : Int} {r : Nat} (hr : r < e.ner) : ∀ fuel t, Around (treeE e lab) r t → (t = r ∨ (e.value t : Int) ≤ lim) →
    e.ner - t < fuel → ∃ s, topLoop e lim fuel t = some s ∧ Widest (treeE e lab) lim r s := by
  intro fuel
  induction fuel with
  | zero => intro t _ _ h; omega
  | succ fuel ih =>
    intro t h1 h2 hf
    have ht := (hG.around hr h1).1
    rw [topLoop]
    by_cases hc : e.parent t = t ∨ lim < (e.value (e.parent t) : Int)
    · rw [if_pos hc]
      refine ⟨t, rfl, h1, h2, fun p hp => ?_⟩
      obtain ⟨k1, k2⟩ := par_some.1 hp
      subst k1
      exact hc.resolve_left k2
    · rw [if_neg hc]
      rw [not_or] at hc
      have := hG.up t ht hc.1
      exact ih (e.parent t) (h1.tail (par_some.2 ⟨rfl, hc.1⟩)) (.inr (by omega)) (by have := hG.lt t ht; omega)

/-- Two widest regions are the same. -/
theorem widest_unique (hG : Good e) {lim : Int} {r s s' : Nat} (hr : r < e.ner) (h1 : Widest (treeE e lab) lim r s) (h2 : Widest (treeE e lab) lim r s') :
    s = s' := by
  have key : ∀ x y, Widest (treeE e lab) lim r x → Widest (treeE e lab) lim r y → Around (treeE e lab) x y → x = y := by
    intro x y hx hy hxy
    rcases Relation.ReflTransGen.cases_head hxy with h | ⟨p, hp, hpy⟩
    · exact h
    · exfalso
      have hxl := (hG.around hr hx.anc).1
      obtain ⟨k1, k2⟩ := par_some.1 hp
      have hpl : p < e.ner := by rw [← k1]; exact hG.lt x hxl
      have h3 := hx.last p hp
      have h4 := hG.around hpl hpy
      have h5 := hG.up x hxl (by rw [k1]; exact k2)
      rw [k1] at h5
      have h6 := hG.around hr hx.anc
      have h7 : (e.value p : Int) ≤ e.value y := by rcases h4.2.2 with rfl | h <;> omega
      have h3' : lim < (e.value p : Int) := h3
      rcases hy.within with h | h
      · omega
      · have h' : (e.value y : Int) ≤ lim := h
        omega
  rcases around_total h1.anc h2.anc with h | h
  · exact key s s' h1 h2 h
  · exact (key s' s h2 h1 h).symm

theorem variation_unique (hG : Good e) {r : Nat} (hr : r < e.ner) {C : Criteria} {v w : ℚ} (h1 : Variation (treeE e lab) C r v)
    (h2 : Variation (treeE e lab) C r w) : v = w := by
  by_cases hd : 0 < C.delta
  · obtain ⟨s, a1, a2⟩ := h1.1 hd
    obtain ⟨s', b1, b2⟩ := h2.1 hd
    have := widest_unique hG hr a1 b1
    subst this
    rw [a2, b2]
  · rw [h1.2 (by omega), h2.2 (by omega)]

theorem var_spec (hG : Good e) (lab : α → Nat) : ∀ k ≤ e.ner, ∃ sc var, varLoop c e k = some (sc, var) ∧
    (∀ j < e.ner, Around (treeE e lab) j (sc j) ∧ (sc j = j ∨ (e.value (sc j) : Int) ≤ e.value j + c.delta)) ∧
    ∀ j < k, Variation (treeE e lab) (crit c nel) j (var j) := by
  intro k
  induction k with
  | zero => intro _; exact ⟨_, _, rfl, fun j _ => ⟨.refl, .inl rfl⟩, fun j hj => by omega⟩
  | succ k ih =>
    intro hk
    obtain ⟨sc, var, h1, h2, h3⟩ := ih (by omega)
    have hkl : k < e.ner := by omega
    obtain ⟨a1, a2⟩ := h2 k hkl
    obtain ⟨top, t1, t2⟩ := top_spec (lab := lab) hG hkl (e.ner + 1) (sc k) a1 a2 (by omega)
    refine ⟨_, _, by rw [varLoop, h1, Option.bind_some]; dsimp only; rw [t1, Option.map_some], ?_, ?_⟩
    · intro j hj
      by_cases ej : j = e.parent k
      · subst ej
        rw [upd_same]
        obtain ⟨b1, b2⟩ := h2 _ hj
        rcases Nat.le_total top (sc (e.parent k)) with hle | hle
        · rw [max_eq_right hle]; exact ⟨b1, b2⟩
        · rw [max_eq_left hle]
          by_cases hself : e.parent k = k
          · rw [hself] at b1 ⊢
            exact ⟨t2.anc, t2.within⟩
          · have hup := hG.up k hkl hself
            have hb := hG.around hj b1
            have ht := hG.around hkl t2.anc
            rcases Relation.ReflTransGen.cases_head t2.anc with h | ⟨p, hp, hpt⟩
            · omega
            · obtain ⟨k1, k2⟩ := par_some.1 hp
              rw [k1]
              refine ⟨hpt, ?_⟩
              rcases t2.within with h | h
              · rw [h] at hpt
                have := hG.around (by rw [← k1]; exact hj) hpt
                omega
              · right
                have h' : (e.value top : Int) ≤ e.value k + c.delta := h
                rw [k1] at hup
                omega
      · rw [upd_ne _ _ ej]; exact h2 j hj
    · intro j hj
      by_cases ej : j = k
      · subst ej
        rw [upd_same]
        refine ⟨fun hd => ⟨top, t2, ?_⟩, fun hd => ?_⟩
        · exact if_pos hd
        · exact if_neg (by have : c.delta ≤ 0 := hd; omega)
      · rw [upd_ne _ _ ej]; exact h3 j (by omega)

/-! ### Maximally stable regions -/

/-- The counter counts the stable regions. -/
def Counted (e : ES) (st : (Nat → Bool) × Int) : Prop := st.2 = (((List.range e.ner).filter fun i => st.1 i).length : Int)

theorem filter_upd {f : Nat → Bool} {i n : Nat} (hi : i < n) (hf : f i = true) :
    (((List.range n).filter fun j => upd f i false j).length : Int) = ((List.range n).filter fun j => f j).length - 1 := by
  induction n with
  | zero => omega
  | succ n ih =>
    rw [List.range_succ, List.filter_append, List.filter_append, List.length_append, List.length_append]
    by_cases e : i = n
    · subst e
      have h1 : (List.range i).filter (fun j => upd f i false j) = (List.range i).filter fun j => f j := by
        refine List.filter_congr fun j hj => ?_
        rw [upd_ne _ _ (by have := List.mem_range.1 hj; omega)]
      rw [h1]
      simp [upd_same, hf]
    · have := ih (by omega)
      have h2 : (List.filter (fun j => upd f i false j) [n]) = List.filter (fun j => f j) [n] := by
        simp [List.filter_cons, upd_ne f (i := i) (j := n) false (fun h => e h.symm)]
      rw [h2]
      push_cast
      omega

theorem Counted.drop {st : (Nat → Bool) × Int} (h : Counted e st) {i : Nat} (hi : i < e.ner) : Counted e (drop st i) := by
  unfold VlFeat.drop
  split
  · next hf =>
    unfold Counted
    dsimp only
    rw [filter_upd hi hf, ← h]
  · exact h

theorem loser_lt (hG : Good e) {var : Nat → ℚ} {k i : Nat} (hk : k < e.ner) (h : loser c e var k = some i) : i < e.ner := by
  unfold loser at h
  split at h
  · exact absurd h (by simp)
  · split at h
    · injection h with h; rw [← h]; exact hG.lt k hk
    · split at h
      · injection h with h; rw [← h]; exact hk
      · exact absurd h (by simp)

theorem nms_spec (hG : Good e) {var : Nat → ℚ} : ∀ k ≤ e.ner, Counted e (nmsLoop c e var k) ∧
    ∀ i, ((nmsLoop c e var k).1 i = true ↔ ∀ j < k, loser c e var j ≠ some i) := by
  intro k
  induction k with
  | zero =>
    intro _
    refine ⟨?_, fun i => ⟨fun _ j hj => by omega, fun _ => rfl⟩⟩
    unfold Counted nmsLoop
    simp
  | succ k ih =>
    intro hk
    obtain ⟨h1, h2⟩ := ih (by omega)
    have hs : nmsLoop c e var (k + 1) = match loser c e var k with | none => nmsLoop c e var k | some j => drop (nmsLoop c e var k) j := rfl
    cases hl : loser c e var k with
    | none =>
      rw [hl] at hs
      rw [hs]
      refine ⟨h1, fun i => ?_⟩
      dsimp only
      rw [h2 i]
      constructor
      · intro h j hj
        by_cases ej : j = k
        · rw [ej, hl]; simp
        · exact h j (by omega)
      · exact fun h j hj => h j (by omega)
    | some b =>
      rw [hl] at hs
      rw [hs]
      refine ⟨h1.drop (loser_lt hG (by omega) hl), fun i => ?_⟩
      have hb : (drop (nmsLoop c e var k) b).1 i = true ↔ (nmsLoop c e var k).1 i = true ∧ i ≠ b := by
        unfold VlFeat.drop
        by_cases hb : (nmsLoop c e var k).1 b = true
        · rw [if_pos hb]
          dsimp only
          by_cases ei : i = b
          · rw [ei, upd_same]; simp
          · rw [upd_ne _ _ ei]; simp [ei]
        · rw [if_neg hb]
          refine ⟨fun h => ⟨h, fun e => hb (by rw [← e]; exact h)⟩, fun h => h.1⟩
      show (drop (nmsLoop c e var k) b).1 i = true ↔ _
      rw [hb, h2 i]
      constructor
      · rintro ⟨h, hne⟩ j hj
        by_cases ej : j = k
        · rw [ej, hl]; intro e; injection e with e; exact hne e.symm
        · exact h j (by omega)
      · intro h
        exact ⟨fun j hj => h j (by omega), fun e => h k (by omega) (by rw [hl, e])⟩

theorem neg_zero' {rnd : ℚ → ℚ} (h : Rounding rnd) : rnd 0 = 0 := by
  have := h.neg 0
  rw [neg_zero] at this
  linarith

theorem loser_iff (hG : Good e) (hr : Rounding c.r32) (hn : 0 ≤ c.nms) {var : Nat → ℚ} (hv : ∀ j < e.ner, Variation (treeE e lab) (crit c nel) j (var j))
    {i : Nat} (hi : i < e.ner) : (∃ j < e.ner, loser c e var j = some i) ↔ Beaten (treeE e lab) (crit c nel) i := by
  have h0 := neg_zero' hr
  have hbeat : ∀ {q r : Nat}, q < e.ner → r < e.ner → (Beats (treeE e lab) (crit c nel) q r ↔ c.r32 (var q - var r) < -c.nms) := by
    intro q r hq hr'
    constructor
    · rintro ⟨v, w, h1, h2, h3⟩
      rw [variation_unique hG hr' h1 (hv r hr'), variation_unique hG hq h2 (hv q hq)] at h3
      exact h3
    · exact fun h => ⟨_, _, hv r hr', hv q hq, h⟩
  constructor
  · rintro ⟨j, hj, h⟩
    have hpl := hG.lt j hj
    unfold loser at h
    split at h
    · exact absurd h (by simp)
    · next hval =>
      split at h
      · next hc =>
        injection h with h
        have hne : e.parent j ≠ j := by
          intro e'
          rw [e', sub_self, h0] at hc
          linarith
        have hup := hG.up j hj hne
        subst h
        exact .inl ⟨j, hj, par_some.2 ⟨rfl, hne⟩, (by show e.value _ = e.value j + 1; omega), (hbeat hj hpl).2 hc⟩
      · split at h
        · next hc =>
          injection h with h
          subst h
          have hne : e.parent j ≠ j := by
            intro e'
            rw [e', sub_self, h0] at hc
            linarith
          have hup := hG.up j hj hne
          exact .inr ⟨e.parent j, par_some.2 ⟨rfl, hne⟩, (by show e.value _ = e.value j + 1; omega), (hbeat hpl hj).2 hc⟩
        · exact absurd h (by simp)
  · rintro (⟨j, hj, h1, h2, h3⟩ | ⟨p, h1, h2, h3⟩)
    · have hj : j < e.ner := hj
      obtain ⟨k1, k2⟩ := par_some.1 h1
      have h2 : e.value i = e.value j + 1 := h2
      refine ⟨j, hj, ?_⟩
      unfold loser
      rw [k1, if_neg (by omega), if_pos ((hbeat hj hi).1 h3)]
    · obtain ⟨k1, k2⟩ := par_some.1 h1
      have h2 : e.value p = e.value i + 1 := h2
      have hpl : p < e.ner := by rw [← k1]; exact hG.lt i hi
      have h4 := (hbeat hpl hi).1 h3
      refine ⟨i, hi, ?_⟩
      unfold loser
      rw [k1, if_neg (by omega), if_neg, if_pos h4]
      intro h5
      have h6 := hr.neg (var i - var p)
      rw [neg_sub] at h6
      linarith

/-! ### The filter -/

theorem stableLoop_spec (hG : Good e) {st : Nat → Bool} : ∀ fuel p, p < e.ner → e.ner - p < fuel → ∃ q, stableLoop e st fuel p = some q ∧
    Around (treeE e lab) p q ∧ (st q = true ∨ (treeE e lab).parent q = none) ∧
    ∀ a, Around (treeE e lab) p a → Around (treeE e lab) a q → a ≠ q → ¬ st a = true := by
  intro fuel
  induction fuel with
  | zero => intro p _ h; omega
  | succ fuel ih =>
    intro p hp hf
    rw [stableLoop]
    by_cases hc : st p = true ∨ e.parent p = p
    · rw [if_pos hc]
      refine ⟨p, rfl, .refl, hc.imp id fun h => par_none.2 h, ?_⟩
      intro a h1 h2 hne
      have := hG.around hp h1
      have := hG.around this.1 h2
      omega
    · rw [if_neg hc]
      rw [not_or] at hc
      have hup := hG.up p hp hc.2
      have hpp : (treeE e lab).parent p = some (e.parent p) := par_some.2 ⟨rfl, hc.2⟩
      obtain ⟨q, h1, h2, h3, h4⟩ := ih (e.parent p) (hG.lt p hp) (by have := hG.lt p hp; omega)
      refine ⟨q, h1, .head hpp h2, h3, ?_⟩
      intro a ha haq hne
      rcases Relation.ReflTransGen.cases_head ha with h | ⟨b, hb, hba⟩
      · rw [← h]; exact hc.1
      · rw [hpp] at hb; injection hb with hb
        subst hb
        exact h4 a hba haq hne

/-- The nearest region of `K` is unique. -/
theorem nearest_unique (hG : Good e) {K : Nat → Prop} {r q q' : Nat} (hr : r < e.ner) (h1 : Nearest (treeE e lab) K r q)
    (h2 : Nearest (treeE e lab) K r q') : q = q' := by
  obtain ⟨p, hp, ha⟩ := h1.around
  obtain ⟨p', hp', ha'⟩ := h2.around
  rw [hp] at hp'; injection hp' with hp'
  subst hp'
  have key : ∀ x y, Nearest (treeE e lab) K r x → Nearest (treeE e lab) K r y → Around (treeE e lab) p x → Around (treeE e lab) x y → x = y := by
    intro x y hx hy hpx hxy
    by_contra hne
    rcases hx.found with h | h
    · exact hy.first p x hp hpx hxy hne h
    · rcases Relation.ReflTransGen.cases_head hxy with h' | ⟨b, hb, _⟩
      · exact hne h'
      · rw [h] at hb; exact absurd hb (by simp)
  rcases around_total ha ha' with h | h
  · exact key q q' h1 h2 ha h
  · exact (key q' q h2 h1 ha' h).symm

/-- The nearest region depends on larger indexes only. -/
theorem nearest_congr (hG : Good e) {K K' : Nat → Prop} {r q : Nat} (hr : r < e.ner) (hK : ∀ j, r < j → j < e.ner → (K j ↔ K' j))
    (h : Nearest (treeE e lab) K r q) : Nearest (treeE e lab) K' r q := by
  have hin : ∀ p a, (treeE e lab).parent r = some p → Around (treeE e lab) p a → r < a ∧ a < e.ner := by
    intro p a hp ha
    obtain ⟨k1, k2⟩ := par_some.1 hp
    have h1 := hG.up r hr (by rw [k1]; exact k2)
    rw [k1] at h1
    have h2 := hG.around (by rw [← k1]; exact hG.lt r hr) ha
    exact ⟨by omega, h2.1⟩
  obtain ⟨p, hp, ha⟩ := h.around
  refine ⟨h.around, h.found.imp (hK q (hin p q hp ha).1 (hin p q hp ha).2).1 id, ?_⟩
  intro p' a hp' ha' haq hne hk
  exact h.first p' a hp' ha' haq hne ((hK a (hin p' a hp' ha').1 (hin p' a hp' ha').2).2 hk)

/-- The conditions after the suppression. -/
def Keep (c : Cfg) (nel : Nat) (e : ES) (lab : α → Nat) (var : Nat → ℚ) (K : Nat → Prop) (i : Nat) : Prop :=
  var i < c.stable ∧ c.r32 (e.area i : ℚ) ≤ maxArea c nel ∧ minArea c nel ≤ c.r32 (e.area i : ℚ) ∧
    (0 < c.dup → c.dup < 1 → ∀ q, Nearest (treeE e lab) K i q → ¬ TooSimilar (treeE e lab) (crit c nel) i q)

theorem removed_spec (hG : Good e) {var : Nat → ℚ} {st : Nat → Bool} {i : Nat} (hi : i < e.ner) :
    ∃ b, removed c nel e var st i = some b ∧ (b = false ↔ Keep c nel e lab var (fun j => st j = true) i) := by
  unfold removed Keep
  by_cases h1 : c.stable ≤ var i
  · rw [if_pos h1]
    exact ⟨true, rfl, by constructor <;> intro h <;> [exact absurd h (by simp); exact absurd h1 (not_le.2 h.1)]⟩
  rw [if_neg h1]
  by_cases h2 : maxArea c nel < c.r32 (e.area i : ℚ)
  · rw [if_pos h2]
    exact ⟨true, rfl, by constructor <;> intro h <;> [exact absurd h (by simp); exact absurd h2 (not_lt.2 h.2.1)]⟩
  rw [if_neg h2]
  by_cases h3 : c.r32 (e.area i : ℚ) < minArea c nel
  · rw [if_pos h3]
    exact ⟨true, rfl, by constructor <;> intro h <;> [exact absurd h (by simp); exact absurd h3 (not_lt.2 h.2.2.1)]⟩
  rw [if_neg h3]
  by_cases h4 : c.dup < 1 ∧ 0 < c.dup ∧ e.parent i ≠ i
  · rw [if_pos h4]
    obtain ⟨q, k1, k2, k3, k4⟩ := stableLoop_spec (lab := lab) (st := st) hG (e.ner + 1) (e.parent i) (hG.lt i hi) (by omega)
    have hpi : (treeE e lab).parent i = some (e.parent i) := par_some.2 ⟨rfl, h4.2.2⟩
    have hN : Nearest (treeE e lab) (fun j => st j = true) i q := by
      refine ⟨⟨_, hpi, k2⟩, k3, ?_⟩
      intro p a hp ha haq hne
      rw [hpi] at hp; injection hp with hp
      subst hp
      exact k4 a ha haq hne
    rw [k1, Option.map_some]
    refine ⟨_, rfl, ?_⟩
    rw [decide_eq_false_iff_not]
    constructor
    · intro h
      refine ⟨not_le.1 h1, not_lt.1 h2, not_lt.1 h3, fun _ _ q' hq' => ?_⟩
      rw [nearest_unique hG hi hq' hN]
      exact h
    · intro h
      exact h.2.2.2 h4.2.1 h4.1 q hN
  · rw [if_neg h4]
    refine ⟨false, rfl, fun _ => ⟨not_le.1 h1, not_lt.1 h2, not_lt.1 h3, fun a1 a2 q hq => ?_⟩, fun _ => rfl⟩
    obtain ⟨p, hp, _⟩ := hq.around
    obtain ⟨k1, k2⟩ := par_some.1 hp
    exact absurd ⟨a2, a1, by rw [k1]; exact k2⟩ h4

theorem keep_congr (hG : Good e) {var : Nat → ℚ} {K K' : Nat → Prop} {i : Nat} (hi : i < e.ner) (hK : ∀ j, i < j → j < e.ner → (K j ↔ K' j)) :
    Keep c nel e lab var K i ↔ Keep c nel e lab var K' i := by
  unfold Keep
  refine and_congr_right fun _ => and_congr_right fun _ => and_congr_right fun _ => ?_
  constructor
  · intro h a1 a2 q hq
    exact h a1 a2 q (nearest_congr hG hi (fun j h1 h2 => (hK j h1 h2).symm) hq)
  · intro h a1 a2 q hq
    exact h a1 a2 q (nearest_congr hG hi hK hq)

theorem filter_spec (hG : Good e) {var : Nat → ℚ} (lab : α → Nat) (st0 : Nat → Bool) : ∀ k st, k ≤ e.ner → Counted e st →
    (∀ j < k, st.1 j = st0 j) → (∀ j, k ≤ j → j < e.ner → (st.1 j = true ↔ st0 j = true ∧ Keep c nel e lab var (fun j => st.1 j = true) j)) →
    ∃ st', filterLoop c nel e var k st = some st' ∧ Counted e st' ∧
      ∀ j < e.ner, (st'.1 j = true ↔ st0 j = true ∧ Keep c nel e lab var (fun j => st'.1 j = true) j) := by
  intro k
  induction k with
  | zero => intro st _ hc _ h; exact ⟨st, rfl, hc, fun j hj => h j (by omega) hj⟩
  | succ k ih =>
    intro st hk hc h1 h2
    have hkl : k < e.ner := by omega
    rw [filterLoop]
    by_cases hs : st.1 k = true
    · rw [if_pos hs]
      obtain ⟨b, b1, b2⟩ := removed_spec (c := c) (nel := nel) (lab := lab) (var := var) (st := st.1) hG hkl
      rw [b1, Option.bind_some]
      cases b with
      | true =>
        rw [if_pos rfl]
        have hgt : ∀ i j, k ≤ i → i < j → j < e.ner → ((st.1 j = true) ↔ (upd st.1 k false j = true)) := by
          intro i j h3 h4 _; rw [upd_ne _ _ (by omega)]
        refine ih (upd st.1 k false, st.2 - 1) (by omega) ?_ ?_ ?_
        · unfold Counted
          dsimp only
          rw [filter_upd hkl hs, ← hc]
        · intro j hj
          dsimp only
          rw [upd_ne _ _ (by omega)]; exact h1 j (by omega)
        · intro j hj hjl
          dsimp only
          by_cases ej : j = k
          · subst ej
            rw [upd_same]
            refine ⟨fun h => absurd h (by simp), fun h => ?_⟩
            have := b2.2 ((keep_congr hG hjl fun i h3 h4 => hgt j i (le_refl _) h3 h4).2 h.2)
            exact absurd this (by simp)
          · rw [upd_ne _ _ ej, h2 j (by omega) hjl]
            exact and_congr_right fun _ => keep_congr hG hjl fun i h3 h4 => hgt j i (by omega) h3 h4
      | false =>
        rw [if_neg (by simp)]
        refine ih st (by omega) hc (fun j hj => h1 j (by omega)) ?_
        intro j hj hjl
        by_cases ej : j = k
        · subst ej
          exact ⟨fun _ => ⟨by rw [← h1 j (by omega)]; exact hs, b2.1 rfl⟩, fun _ => hs⟩
        · exact h2 j (by omega) hjl
    · rw [if_neg hs]
      refine ih st (by omega) hc (fun j hj => h1 j (by omega)) ?_
      intro j hj hjl
      by_cases ej : j = k
      · subst ej
        refine ⟨fun h => absurd h hs, fun h => absurd (by rw [h1 j (by omega)]; exact h.1) hs⟩
      · exact h2 j (by omega) hjl

/-- Recognition: the reported regions satisfy the specification. -/
theorem recognize_spec (hG : Good e) (lab : α → Nat) (hr : Rounding c.r32) :
    ∃ K : Nat → Bool, recognize c nel e = some (((List.range e.ner).filter K).map e.index) ∧
      IsReport (treeE e lab) (crit c nel) (fun r => r < e.ner ∧ K r = true) := by
  obtain ⟨sc, var, h1, -, h3⟩ := var_spec (c := c) (nel := nel) hG lab e.ner (le_refl _)
  have hst : ∃ st0 : (Nat → Bool) × Int, (if 0 ≤ c.nms then nmsLoop c e var e.ner else (fun _ => true, (e.ner : Int))) = st0 ∧ Counted e st0 ∧
      ∀ i < e.ner, (st0.1 i = true ↔ (0 ≤ c.nms → ¬ Beaten (treeE e lab) (crit c nel) i)) := by
    refine ⟨_, rfl, ?_, ?_⟩
    · split
      · exact (nms_spec hG e.ner (le_refl _)).1
      · unfold Counted; simp
    · intro i hi
      split
      · next hn =>
        rw [(nms_spec hG e.ner (le_refl _)).2 i]
        rw [← loser_iff hG hr hn h3 hi]
        constructor
        · rintro h _ ⟨j, hj, e'⟩; exact h j hj e'
        · exact fun h j hj e' => h hn ⟨j, hj, e'⟩
      · next hn => exact ⟨fun _ h => absurd h hn, fun _ => rfl⟩
  obtain ⟨st0, e0, c0, hst0⟩ := hst
  obtain ⟨st, f1, f2, f3⟩ := filter_spec (c := c) (nel := nel) (var := var) hG lab st0.1 e.ner st0 (le_refl _) c0 (fun _ _ => rfl)
    (fun j h4 h5 => by omega)
  refine ⟨st.1, ?_, ?_⟩
  · unfold recognize
    rw [h1, Option.bind_some]
    dsimp only
    rw [e0, f1, Option.bind_some, if_pos]
    rw [List.length_map]; exact f2.symm
  · intro r
    constructor
    · rintro ⟨hrl, hk⟩
      obtain ⟨k1, k2, k3, k4, k5⟩ := (f3 r hrl).1 hk
      refine ⟨⟨hrl, (hst0 r hrl).1 k1, ?_, k4, k3⟩, ?_⟩
      · intro v hv
        rw [variation_unique hG hrl hv (h3 r hrl)]; exact k2
      · intro a1 a2 q hq
        exact k5 a1 a2 q (nearest_congr hG hrl (fun j _ h5 => ⟨fun h => h.2, fun h => ⟨h5, h⟩⟩) hq)
    · rintro ⟨hF, hD⟩
      have hrl : r < e.ner := hF.reg
      refine ⟨hrl, (f3 r hrl).2 ⟨(hst0 r hrl).2 hF.nms, hF.stable _ (h3 r hrl), hF.hi, hF.lo, ?_⟩⟩
      intro a1 a2 q hq
      exact hD a1 a2 q (nearest_congr hG hrl (fun j _ h5 => ⟨fun h => ⟨h5, h⟩, fun h => h.2⟩) hq)

/-- The report of `extract_pixel`. -/
theorem report_spec (gm : Nat) (hS : ∀ j < e.ner, e.erOf (e.index j) = some j) : ∀ l : List Nat, (∀ j ∈ l, j < e.ner) →
    report gm e (l.map e.index) = some (l.map fun j => { gray := e.value j ^^^ gm, size := e.area j }) := by
  intro l
  induction l with
  | nil => intro _; rfl
  | cons j l ih =>
    intro hl
    have hj := hl j List.mem_cons_self
    rw [List.map_cons, report, hS j hj]
    dsimp only
    rw [if_pos hj, ih fun i hi => hl i (List.mem_cons_of_mem _ hi)]
    rfl

end Verif.VlFeat
