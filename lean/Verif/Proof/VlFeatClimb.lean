import Verif.Proof.VlFeatSort

/-!
# The VLFeat detector: `climb`
-/

namespace Verif.VlFeat

/-- The shortcuts of the pixels in `P` lead to the root `rt`; `d` grows along them. -/
structure SC (P : Nat → Prop) (sc rt d : Nat → Nat) : Prop where
  mem : ∀ x, P x → P (sc x)
  root : ∀ x, P x → sc x = x → rt x = x
  rt : ∀ x, P x → rt (sc x) = rt x
  up : ∀ x, P x → sc x ≠ x → d x < d (sc x)

variable {P : Nat → Prop} {sc c rt d : Nat → Nat} {D : Nat}

theorem SC.reach (h : SC P sc rt d) (hD : ∀ x, P x → d x ≤ D) : ∀ k x, P x → D - d x ≤ k → P (rt x) ∧ d x ≤ d (rt x) ∧ rt (rt x) = rt x := by
  intro k
  induction k with
  | zero =>
    intro x hx hk
    by_cases e : sc x = x
    · rw [h.root x hx e]; exact ⟨hx, le_refl _, h.root x hx e⟩
    · have h1 := h.up x hx e
      have h2 := hD _ (h.mem x hx)
      omega
  | succ k ih =>
    intro x hx hk
    by_cases e : sc x = x
    · rw [h.root x hx e]; exact ⟨hx, le_refl _, h.root x hx e⟩
    · have h1 := h.up x hx e
      have h2 := hD _ (h.mem x hx)
      obtain ⟨h3, h4, h5⟩ := ih (sc x) (h.mem x hx) (by omega)
      rw [h.rt x hx] at h3 h4 h5
      exact ⟨h3, by omega, h5⟩

theorem SC.memRt (h : SC P sc rt d) (hD : ∀ x, P x → d x ≤ D) {x : Nat} (hx : P x) : P (rt x) := (h.reach hD D x hx (by omega)).1

theorem SC.rtRt (h : SC P sc rt d) (hD : ∀ x, P x → d x ≤ D) {x : Nat} (hx : P x) : rt (rt x) = rt x :=
  (h.reach hD D x hx (by omega)).2.2

theorem SC.le (h : SC P sc rt d) (hD : ∀ x, P x → d x ≤ D) {x : Nat} (hx : P x) : d x ≤ d (rt x) := (h.reach hD D x hx (by omega)).2.1

theorem SC.lt (h : SC P sc rt d) (hD : ∀ x, P x → d x ≤ D) {x : Nat} (hx : P x) (hn : rt x ≠ x) : d x < d (rt x) := by
  have e : sc x ≠ x := fun e => hn (h.root x hx e)
  have := h.up x hx e
  have h2 := h.le hD (h.mem x hx)
  rw [h.rt x hx] at h2
  omega

theorem SC.fix (h : SC P sc rt d) (hD : ∀ x, P x → d x ≤ D) {x : Nat} (hx : P x) (he : rt x = x) : sc x = x := by
  by_contra e
  have h1 := h.up x hx e
  have h2 := h.le hD (h.mem x hx)
  rw [h.rt x hx, he] at h2
  omega

/-- The way back to the pixel where the walk has begun. -/
def Back (c : Nat → Nat) : List Nat → Prop
  | [] => True
  | [x] => c x = x
  | x :: y :: l => c x = y ∧ x ≠ y ∧ Back c (y :: l)

theorem Back.upd {v i : Nat} : ∀ {l : List Nat}, Back c l → i ∉ l → Back (upd c i v) l
  | [], _, _ => trivial
  | [x], h, hi => by
    show VlFeat.upd c i v x = x
    rw [upd_ne _ _ (fun e => hi (by rw [e]; exact List.mem_cons_self))]
    exact h
  | x :: y :: l, h, hi => by
    refine ⟨?_, h.2.1, Back.upd h.2.2 fun h' => hi (List.mem_cons_of_mem _ h')⟩
    rw [upd_ne _ _ (fun e => hi (by rw [e]; exact List.mem_cons_self))]
    exact h.1

theorem climbDown_spec {root : Nat} : ∀ (l : List Nat) (x fuel : Nat) (c : Nat → Nat), Back c (x :: l) → (x :: l).Nodup → l.length < fuel →
    ∃ c', climbDown fuel c root x = some c' ∧ ∀ y, c' y = if y ∈ x :: l then root else c y := by
  intro l
  induction l with
  | nil =>
    intro x fuel c hb _ hf
    obtain ⟨f, rfl⟩ : ∃ f, fuel = f + 1 := ⟨fuel - 1, by simp at hf; omega⟩
    have hb : c x = x := hb
    refine ⟨upd c x root, by rw [climbDown, if_pos hb], fun y => ?_⟩
    unfold upd
    simp only [List.mem_singleton]
  | cons z l ih =>
    intro x fuel c hb hnd hf
    obtain ⟨f, rfl⟩ : ∃ f, fuel = f + 1 := ⟨fuel - 1, by simp at hf; omega⟩
    obtain ⟨h1, h2, h3⟩ := hb
    rw [List.nodup_cons] at hnd
    obtain ⟨c', h4, h5⟩ := ih z f (upd c x root) (h3.upd hnd.1) hnd.2 (by simp at hf; omega)
    refine ⟨c', ?_, fun y => ?_⟩
    · rw [climbDown, if_neg (by rw [h1]; exact fun e => h2 e.symm), h1]; exact h4
    · rw [h5 y]
      by_cases hy : y ∈ z :: l
      · rw [if_pos hy, if_pos (List.mem_cons_of_mem _ hy)]
      · rw [if_neg hy]
        unfold upd
        by_cases e : y = x
        · rw [if_pos e, if_pos (by rw [e]; exact List.mem_cons_self)]
        · rw [if_neg e, if_neg (by rw [List.mem_cons]; exact fun h => h.elim e hy)]

theorem climbUp_spec (h : SC P sc rt d) (hD : ∀ x, P x → d x ≤ D) (x₀ : Nat) : ∀ (fuel : Nat) (l : List Nat) (c : Nat → Nat) (prev idx : Nat),
    P idx → rt idx = rt x₀ → D - d idx < fuel → (∀ y ∈ l, P y ∧ rt y = rt x₀ ∧ d y < d idx) → l.Nodup → (∀ y, y ∉ l → c y = sc y) →
    Back c l → (l = [] ∧ prev = idx ∨ ∃ l', l = prev :: l') →
    ∃ c' l', climbUp fuel c prev idx = some (c', rt x₀) ∧ Back c' (rt x₀ :: l') ∧ (rt x₀ :: l').Nodup ∧ l'.length < l.length + fuel ∧
      (∀ y ∈ rt x₀ :: l', P y ∧ rt y = rt x₀) ∧ ∀ y, y ∉ rt x₀ :: l' → c' y = sc y := by
  intro fuel
  induction fuel with
  | zero => intro l c prev idx _ _ hf; omega
  | succ fuel ih =>
    intro l c prev idx hi hr hf hl hnd hc hb hp
    have hil : idx ∉ l := fun h' => by have := (hl idx h').2.2; omega
    have hb' : Back (upd c idx prev) (idx :: l) := by
      rcases hp with ⟨rfl, rfl⟩ | ⟨l', rfl⟩
      · exact upd_same _ _ _
      · refine ⟨upd_same _ _ _, fun e => hil (by rw [e]; exact List.mem_cons_self), hb.upd hil⟩
    have hc' : ∀ y, y ∉ idx :: l → upd c idx prev y = sc y := by
      intro y hy
      rw [List.mem_cons, not_or] at hy
      rw [upd_ne _ _ hy.1]
      exact hc y hy.2
    have hnd' : (idx :: l).Nodup := List.nodup_cons.2 ⟨hil, hnd⟩
    rw [climbUp, hc idx hil]
    by_cases e : sc idx = idx
    · have hroot : rt x₀ = idx := by rw [← hr]; exact h.root idx hi e
      refine ⟨upd c idx prev, l, by rw [if_pos e, hroot], by rw [hroot]; exact hb', by rw [hroot]; exact hnd', by omega, ?_, by rw [hroot]; exact hc'⟩
      intro y hy
      rw [hroot, List.mem_cons] at hy
      rcases hy with rfl | hy
      · exact ⟨hi, hr⟩
      · exact ⟨(hl y hy).1, (hl y hy).2.1⟩
    · rw [if_neg e]
      have h1 := h.up idx hi e
      have h2 := hD _ (h.mem idx hi)
      obtain ⟨c', l', a1, a2, a3, a4, a5, a6⟩ := ih (idx :: l) (upd c idx prev) idx (sc idx) (h.mem idx hi) (by rw [h.rt idx hi, hr]) (by omega)
        (by
          intro y hy
          rcases List.mem_cons.1 hy with rfl | hy
          · exact ⟨hi, hr, h1⟩
          · obtain ⟨b1, b2, b3⟩ := hl y hy
            exact ⟨b1, b2, by omega⟩) hnd' hc' hb' (.inr ⟨l, rfl⟩)
      exact ⟨c', l', a1, a2, a3, by rw [List.length_cons] at a4; omega, a5, a6⟩

/-- `climb` ends, returns the root, and leaves shortcuts that lead to the same roots. -/
theorem climb_spec {fuel x : Nat} (h : SC P sc rt d) (hD : ∀ x, P x → d x ≤ D) (hf : D < fuel) (hx : P x) :
    ∃ sc', climb fuel sc x = some (sc', rt x) ∧ SC P sc' rt d := by
  obtain ⟨c', l', a1, a2, a3, a4, a5, a6⟩ := climbUp_spec h hD x fuel [] sc x x hx rfl (by omega) (by simp) List.nodup_nil (fun _ _ => rfl) trivial
    (.inl ⟨rfl, rfl⟩)
  obtain ⟨c'', b1, b2⟩ := climbDown_spec (root := rt x) l' (rt x) fuel c' a2 a3 (by simpa using a4)
  have key : ∀ y, (P y ∧ rt y = rt x ∧ c'' y = rt x) ∨ c'' y = sc y := by
    intro y
    rw [b2 y]
    by_cases hy : y ∈ rt x :: l'
    · rw [if_pos hy]; exact .inl ⟨(a5 y hy).1, (a5 y hy).2, rfl⟩
    · rw [if_neg hy]; exact .inr (a6 y hy)
  refine ⟨c'', ?_, ?_⟩
  · unfold climb
    rw [a1, Option.bind_some]
    dsimp only
    rw [b1, Option.map_some]
  · refine ⟨?_, ?_, ?_, ?_⟩
    · intro y hy
      rcases key y with ⟨_, _, e⟩ | e
      · rw [e]; exact h.memRt hD hx
      · rw [e]; exact h.mem y hy
    · intro y hy e
      rcases key y with ⟨_, k2, k3⟩ | k
      · rw [k2, ← k3, e]
      · rw [k] at e; exact h.root y hy e
    · intro y hy
      rcases key y with ⟨_, k2, k3⟩ | k
      · rw [k3, h.rtRt hD hx, k2]
      · rw [k]; exact h.rt y hy
    · intro y hy e
      rcases key y with ⟨_, k2, k3⟩ | k
      · rw [k3, ← k2]; exact h.lt hD hy (by rw [k2, ← k3]; exact e)
      · rw [k] at e ⊢; exact h.up y hy e

end Verif.VlFeat
