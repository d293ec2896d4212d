import Verif.Proof.VlFeatTree
import Verif.Spec.Image

/-!
# The VLFeat detector: images
-/

namespace Verif.VlFeat

open Verif.Spec
open Relation (ReflTransGen)

variable {conn4 : Bool} {w h : Nat}

theorem idx_mod {x y : Nat} (hx : x < w) : (x + y * w) % w = x := by
  rw [Nat.add_mul_mod_self_right, Nat.mod_eq_of_lt hx]

theorem idx_div {x y : Nat} (hx : x < w) : (x + y * w) / w = y := by
  rw [Nat.add_mul_div_right _ _ (by omega), Nat.div_eq_of_lt hx, Nat.zero_add]

theorem idx_lt {x y : Nat} (hx : x < w) (hy : y < h) : x + y * w < w * h := by
  have : (y + 1) * w ≤ h * w := Nat.mul_le_mul_right w hy
  rw [Nat.add_mul, Nat.one_mul] at this
  rw [Nat.mul_comm w h]
  omega

theorem idx_of {i : Nat} (hi : i < w * h) : i % w < w ∧ i / w < h ∧ i = i % w + i / w * w := by
  have hw : 0 < w := Nat.pos_of_ne_zero fun e => by rw [e] at hi; omega
  refine ⟨Nat.mod_lt _ hw, ?_, ?_⟩
  · rw [Nat.div_lt_iff_lt_mul hw, Nat.mul_comm]; exact hi
  · have := Nat.mod_add_div i w
    rw [Nat.mul_comm w] at this
    exact this.symm

/-- The test of the index distance. -/
def near (conn4 : Bool) (w : Nat) (i j : Nat) : Prop := conn4 = true → ((j : Int) - i).natAbs = 1 ∨ ((j : Int) - i).natAbs % w = 0

theorem mem_nbs {x y x' y' : Nat} (hx : x < w) (hx' : x' < w) (hy' : y' < h) :
    x' + y' * w ∈ nbs conn4 w h (x + y * w) ↔ x ≤ x' + 1 ∧ x' ≤ x + 1 ∧ y ≤ y' + 1 ∧ y' ≤ y + 1 ∧ x' + y' * w ≠ x + y * w ∧
      near conn4 w (x + y * w) (x' + y' * w) := by
  unfold nbs
  rw [List.mem_filterMap]
  have hlook : ∀ d, look conn4 w h (x + y * w) d = if 0 ≤ d.1 + (x : Int) ∧ d.1 + (x : Int) < w ∧ 0 ≤ d.2 + (y : Int) ∧ d.2 + (y : Int) < h ∧
      (conn4 = true → (d.1 + (x : Int) + (d.2 + (y : Int)) * w - ((x + y * w : Nat) : Int)).natAbs = 1 ∨
        (d.1 + (x : Int) + (d.2 + (y : Int)) * w - ((x + y * w : Nat) : Int)).natAbs % w = 0) ∧
      d.1 + (x : Int) + (d.2 + (y : Int)) * w ≠ ((x + y * w : Nat) : Int) then some (d.1 + (x : Int) + (d.2 + (y : Int)) * w).toNat else none := by
    intro d
    unfold look
    dsimp only
    rw [idx_mod hx, idx_div hx]
  constructor
  · rintro ⟨d, hd, e⟩
    rw [hlook] at e
    split at e
    · next hc =>
      injection e with e
      obtain ⟨c1, c2, c3, c4, c5, c6⟩ := hc
      obtain ⟨X, hX⟩ := Int.eq_ofNat_of_zero_le c1
      obtain ⟨Y, hY⟩ := Int.eq_ofNat_of_zero_le c3
      have hn : d.1 + (x : Int) + (d.2 + (y : Int)) * w = ((X + Y * w : Nat) : Int) := by rw [hX, hY]; push_cast; rfl
      rw [hn] at e c5 c6
      have e : X + Y * w = x' + y' * w := e
      have hXw : X < w := by omega
      have e1 : X = x' := by
        have := congrArg (· % w) e
        rwa [idx_mod hXw, idx_mod hx'] at this
      have e2 : Y = y' := by
        have := congrArg (· / w) e
        rwa [idx_div hXw, idx_div hx'] at this
      subst e1 e2
      have hd' : -1 ≤ d.1 ∧ d.1 ≤ 1 ∧ -1 ≤ d.2 ∧ d.2 ≤ 1 := by
        unfold offsets at hd
        simp only [List.mem_cons, List.not_mem_nil, or_false] at hd
        rcases hd with rfl | rfl | rfl | rfl | rfl | rfl | rfl | rfl | rfl <;> decide
      exact ⟨by omega, by omega, by omega, by omega, fun e' => c6 (by rw [e']), c5⟩
    · exact absurd e (by simp)
  · rintro ⟨h1, h2, h3, h4, h5, h6⟩
    refine ⟨((x' : Int) - x, (y' : Int) - y), ?_, ?_⟩
    · have a : (x' : Int) - x = -1 ∨ (x' : Int) - x = 0 ∨ (x' : Int) - x = 1 := by omega
      have b : (y' : Int) - y = -1 ∨ (y' : Int) - y = 0 ∨ (y' : Int) - y = 1 := by omega
      rcases a with a | a | a <;> rcases b with b | b | b <;> rw [a, b] <;> decide
    · rw [hlook]
      dsimp only
      have e1 : (x' : Int) - x + x = x' := by omega
      have e2 : (y' : Int) - y + y = y' := by omega
      have e3 : (x' : Int) + (y' : Int) * w = ((x' + y' * w : Nat) : Int) := by push_cast; rfl
      rw [e1, e2, e3, if_pos]
      · rfl
      · refine ⟨by omega, by omega, by omega, by omega, h6, fun e => h5 (by exact_mod_cast e)⟩

/-- The neighbours are symmetric. -/
theorem graph : Graph (w * h) (nbs conn4 w h) := by
  have key : ∀ i < w * h, ∀ j ∈ nbs conn4 w h i, j < w * h ∧ j ≠ i ∧ i ∈ nbs conn4 w h j := by
    intro i hi j hj
    obtain ⟨a1, a2, a3⟩ := idx_of hi
    have hj0 : j < w * h := by
      unfold nbs at hj
      obtain ⟨d, _, e⟩ := List.mem_filterMap.1 hj
      unfold look at e
      dsimp only at e
      split at e
      · next hc =>
        injection e with e
        obtain ⟨c1, c2, c3, c4, -⟩ := hc
        obtain ⟨X, hX⟩ := Int.eq_ofNat_of_zero_le c1
        obtain ⟨Y, hY⟩ := Int.eq_ofNat_of_zero_le c3
        have hn : d.1 + ((i % w : Nat) : Int) + (d.2 + ((i / w : Nat) : Int)) * w = ((X + Y * w : Nat) : Int) := by rw [hX, hY]; push_cast; rfl
        rw [hn] at e
        have e : X + Y * w = j := e
        rw [← e]
        exact idx_lt (by omega) (by omega)
      · exact absurd e (by simp)
    obtain ⟨b1, b2, b3⟩ := idx_of hj0
    have hj' := hj
    rw [a3, b3] at hj'
    have hm := (mem_nbs (conn4 := conn4) (h := h) (y := i / w) a1 b1 b2).1 hj'
    obtain ⟨h1, h2, h3, h4, h5, h6⟩ := hm
    refine ⟨hj0, by rw [a3, b3]; exact h5, ?_⟩
    have := (mem_nbs (conn4 := conn4) (h := h) (y := j / w) b1 a1 a2).2 ⟨h2, h1, h4, h3, Ne.symm h5, ?_⟩
    · rw [← a3, ← b3] at this; exact this
    · intro hc
      have := h6 hc
      rw [← Int.natAbs_neg, Int.neg_sub] at this
      exact this
  exact ⟨fun i hi j hj => ⟨(key i hi j hj).1, (key i hi j hj).2.1⟩, fun i hi j hj => (key i hi j hj).2.2⟩

/-- Every pixel is joined to the first one. -/
theorem connected : ∀ x < w * h, ∀ y < w * h, ReflTransGen (adj (w * h) (nbs conn4 w h)) x y := by
  have to0 : ∀ n, ∀ i < w * h, i ≤ n → ReflTransGen (adj (w * h) (nbs conn4 w h)) i 0 := by
    intro n
    induction n with
    | zero => intro i _ hi; rw [show i = 0 by omega]
    | succ n ih =>
      intro i hi hn
      obtain ⟨a1, a2, a3⟩ := idx_of hi
      by_cases hx : i % w = 0
      · by_cases hy : i / w = 0
        · rw [a3, hx, hy, Nat.zero_mul]
        · have e : i = 0 + i / w * w := by rw [hx] at a3; exact a3
          have hw : 0 < w := by omega
          obtain ⟨y, hy'⟩ : ∃ y, i / w = y + 1 := Nat.exists_eq_succ_of_ne_zero hy
          have e' : i = 0 + (y + 1) * w := by rw [← hy']; exact e
          have hj : 0 + y * w < w * h := idx_lt hw (by omega)
          have hlt : i = 0 + y * w + w := by rw [e', Nat.add_mul, Nat.one_mul]; omega
          refine .head ⟨hi, hj, ?_⟩ (ih (0 + y * w) hj (by omega))
          have := (mem_nbs (conn4 := conn4) (h := h) (x := 0) (y := y + 1) (x' := 0) (y' := y) hw hw (by omega)).2
            ⟨by omega, by omega, by omega, by omega, by omega, fun _ => .inr ?_⟩
          · rw [← e'] at this; exact this
          · rw [← e']
            have : ((0 + y * w : Nat) : Int) - (i : Int) = -(w : Int) := by omega
            rw [this, Int.natAbs_neg, Int.natAbs_natCast, Nat.mod_self]
      · obtain ⟨x, hx'⟩ : ∃ x, i % w = x + 1 := ⟨i % w - 1, by omega⟩
        have e' : i = (x + 1) + i / w * w := by rw [← hx']; exact a3
        have hx1 : x + 1 < w := by rw [← hx']; exact a1
        have hj : x + i / w * w < w * h := by omega
        refine .head ⟨hi, hj, ?_⟩ (ih (x + i / w * w) hj (by omega))
        have := (mem_nbs (conn4 := conn4) (h := h) (x := x + 1) (y := i / w) (x' := x) (y' := i / w) hx1 (Nat.lt_of_succ_lt hx1) a2).2
          ⟨by omega, by omega, Nat.le_succ _, Nat.le_succ _, by omega, fun _ => .inl ?_⟩
        · rw [← e'] at this; exact this
        · rw [← e']; omega
  intro x hx y hy
  refine (to0 x x hx (le_refl _)).trans ?_
  have h1 := to0 y y hy (le_refl _)
  have : ∀ a b, ReflTransGen (adj (w * h) (nbs conn4 w h)) a b → ReflTransGen (adj (w * h) (nbs conn4 w h)) b a := by
    intro a b hab
    induction hab with
    | refl => exact .refl
    | tail _ e ih => exact .head ⟨e.2.1, e.1, graph.symm _ e.1 _ e.2.2⟩ ih
  exact this _ _ h1

/-- The adjacency of the configured type. -/
def AdjV (conn4 : Bool) (w h : Nat) : Nat × Nat → Nat × Nat → Prop := if conn4 = true then Adj4 w h else Adj8 w h

theorem idx_ne {p q : Nat × Nat} (hp : p.1 < w) (hq : q.1 < w) : q.1 + q.2 * w ≠ p.1 + p.2 * w ↔ p ≠ q := by
  constructor
  · rintro h rfl; exact h rfl
  · intro h e
    have e1 : q.1 = p.1 := by
      have := congrArg (· % w) e
      rwa [idx_mod hq, idx_mod hp] at this
    have e2 : q.2 = p.2 := by
      have := congrArg (· / w) e
      rwa [idx_div hq, idx_div hp] at this
    exact h (Prod.ext e1.symm e2.symm)

theorem adj_iff (hc : conn4 = true → w ≠ 2) {p q : Nat × Nat} (hp : p ∈ Spec.pixels w h) (hq : q ∈ Spec.pixels w h) :
    AdjV conn4 w h p q ↔ adj (w * h) (nbs conn4 w h) (p.1 + p.2 * w) (q.1 + q.2 * w) := by
  have p1 := mem_pixels.1 hp
  have q1 := mem_pixels.1 hq
  unfold adj
  rw [mem_nbs p1.1 q1.1 q1.2, idx_ne p1.1 q1.1]
  have hl1 := idx_lt (h := h) p1.1 p1.2
  have hl2 := idx_lt (h := h) q1.1 q1.2
  unfold AdjV near
  cases conn4 with
  | false =>
    rw [if_neg (by decide)]
    unfold Adj8
    constructor
    · rintro ⟨_, _, h1, h2, h3, h4, h5⟩
      exact ⟨hl1, hl2, h2, h3, h4, h5, h1, fun h => absurd h (by decide)⟩
    · rintro ⟨_, _, h2, h3, h4, h5, h1, _⟩
      exact ⟨hp, hq, h1, h2, h3, h4, h5⟩
  | true =>
    have hw := hc rfl
    rw [if_pos rfl]
    unfold Adj4
    obtain ⟨x, y⟩ := p
    obtain ⟨x', y'⟩ := q
    dsimp only at p1 q1 ⊢
    have hcases : y' = y ∨ y' = y + 1 ∨ y = y' + 1 → ((y' : Int) * w - (y : Int) * w = 0 ∧ y' = y ∨ (y' : Int) * w - (y : Int) * w = w ∧ y' = y + 1 ∨
        (y' : Int) * w - (y : Int) * w = -w ∧ y = y' + 1) := by
      rintro (rfl | rfl | rfl)
      · left; exact ⟨Int.sub_self _, rfl⟩
      · right; left; refine ⟨?_, rfl⟩
        push_cast; rw [Int.add_mul, Int.one_mul]; omega
      · right; right; refine ⟨?_, rfl⟩
        push_cast; rw [Int.add_mul, Int.one_mul]; omega
    have hoff : ((x' + y' * w : Nat) : Int) - ((x + y * w : Nat) : Int) = ((x' : Int) - x) + ((y' : Int) * w - (y : Int) * w) := by
      push_cast; omega
    rw [hoff]
    constructor
    · rintro ⟨_, _, h'⟩
      refine ⟨hl1, hl2, by omega, by omega, by omega, by omega, ?_, fun _ => ?_⟩
      · intro e; injection e with e1 e2; omega
      · rcases h' with ⟨e, h'⟩ | ⟨e, h'⟩
        · left; subst e; omega
        · right
          subst e
          rw [Int.sub_self, Int.zero_add]
          rcases hcases (by omega) with ⟨e, _⟩ | ⟨e, _⟩ | ⟨e, _⟩
          · rw [e]; simp
          · rw [e, Int.natAbs_natCast, Nat.mod_self]
          · rw [e, Int.natAbs_neg, Int.natAbs_natCast, Nat.mod_self]
    · rintro ⟨_, _, h1, h2, h3, h4, h5, h6⟩
      refine ⟨hp, hq, ?_⟩
      have h6 := h6 rfl
      have hne : ¬ (x = x' ∧ y = y') := fun h => h5 (by rw [h.1, h.2])
      by_cases hyy : y' = y
      · left; omega
      · by_cases hxx : x' = x
        · right; omega
        · exfalso
          have key : ∀ k : Nat, 2 ≤ k → (k = w - 1 ∨ k = w + 1) → 3 ≤ w → ¬ (k = 1 ∨ k % w = 0) := by
            intro k hk hk' hw3 hor
            rcases hor with h | h
            · omega
            · rcases hk' with rfl | rfl
              · rw [Nat.mod_eq_of_lt (by omega)] at h; omega
              · rw [Nat.add_mod_left, Nat.mod_eq_of_lt (by omega)] at h; omega
          have hk : ((x' : Int) - x + ((y' : Int) * w - (y : Int) * w)).natAbs = w - 1 ∨ ((x' : Int) - x + ((y' : Int) * w - (y : Int) * w)).natAbs = w + 1 := by
            rcases hcases (by omega) with ⟨e, e'⟩ | ⟨e, e'⟩ | ⟨e, e'⟩
            · omega
            · rw [e]; omega
            · rw [e]; omega
          exact key _ (by omega) hk (by omega) h6

/-- The tree of the indexes is a tree of the pixels. -/
theorem tree_pixels (hc : conn4 = true → w ≠ 2) {f : Nat × Nat → Nat} {g : Nat → Nat} (hg : ∀ p ∈ Spec.pixels w h, f p = g (p.1 + p.2 * w))
    {T : RegionTree Nat Nat} (hT : IsComponentTree (adj (w * h) (nbs conn4 w h)) g (Finset.range (w * h)) T) :
    IsComponentTree (AdjV conn4 w h) f (Spec.pixels w h) ⟨T.isReg, fun p => T.lab (p.1 + p.2 * w), T.gray, T.parent, T.size⟩ := by
  refine hT.comap (fun p => p.1 + p.2 * w) ?_ ?_ (fun a ha b hb => adj_iff hc ha hb) ?_ (fun a b h => ⟨Finset.mem_range.2 h.1, Finset.mem_range.2 h.2.1⟩) hg
  · intro b
    rw [Finset.mem_range]
    constructor
    · intro hb
      obtain ⟨a1, a2, a3⟩ := idx_of hb
      exact ⟨(b % w, b / w), mem_pixels.2 ⟨a1, a2⟩, a3.symm⟩
    · rintro ⟨p, hp, rfl⟩
      exact idx_lt (mem_pixels.1 hp).1 (mem_pixels.1 hp).2
  · intro a ha b hb e
    by_contra hne
    exact (idx_ne (mem_pixels.1 ha).1 (mem_pixels.1 hb).1).2 hne e.symm
  · intro a b hab
    unfold AdjV at hab
    split at hab
    · exact ⟨hab.1, hab.2.1⟩
    · exact ⟨hab.1, hab.2.1⟩

end Verif.VlFeat
