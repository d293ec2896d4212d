import Verif.Model.BlockMemory
import Mathlib.Data.List.Basic
import Mathlib.Data.List.Nodup

/-!
# Invariant of the block memory
-/

namespace Verif.Block

variable {T : Type}

/-- The shift amount the machine uses. -/
def eff (m : Shift) (b : Nat) : Nat :=
  match m with
  | .standard => b
  | .masked => b % 32

/-- The state between operations. -/
structure Ok (m : Shift) (S : BM T) : Prop where
  base : eff m S.base < 31
  size : S.size = 2 ^ eff m S.base
  cur_lt : S.cur < S.blocks
  off_lt : S.off < S.size
  count : S.count = S.cur * S.size + S.off
  free_max : S.reuse.length ≤ S.maxReuse
  free_nodup : S.reuse.Nodup
  free_old : ∀ p ∈ S.reuse, p.2 < S.size ∧ p.1 * S.size + p.2 < S.count

theorem Ok.size_pos {m : Shift} {S : BM T} (h : Ok m S) : 0 < S.size := by
  rw [h.size]; exact Nat.two_pow_pos _

/-- An address before the current one lies in a block. -/
theorem Ok.old_valid {m : Shift} {S : BM T} (h : Ok m S) {p : Ptr} (h2 : p.2 < S.size)
    (h1 : p.1 * S.size + p.2 < S.count) : Valid S p := by
  refine ⟨?_, h2⟩
  rw [h.count] at h1
  have hc := h.cur_lt
  have ho := h.off_lt
  by_contra hn
  have hle : S.cur + 1 ≤ p.1 := by omega
  have := Nat.mul_le_mul_right S.size hle
  rw [Nat.add_mul] at this
  omega

theorem Ok.get_valid {m : Shift} {S : BM T} (h : Ok m S) : Valid S (get S) := by
  unfold get
  split
  · rename_i p l e
    obtain ⟨a, b⟩ := h.free_old p (by rw [e]; simp)
    exact h.old_valid a b
  · exact ⟨h.cur_lt, h.off_lt⟩

theorem shl1_ok {m : Shift} {b : Nat} (h : eff m b < 31) : shl1 m b = some (2 ^ eff m b) := by
  cases m <;> simp only [shl1, eff] at * <;> rw [if_pos h]

theorem init_ok {m : Shift} {S : BM T} {base : Nat} (un : Bool) (mx : Nat) (hb : eff m base < 31)
    (h : Ok m S ∨ (S.blocks = 0 ∧ ¬ (base = S.base ∧ S.useNew = un))) :
    ∃ S', init m S base un mx = some S' ∧ Ok m S' ∧ S'.count = 0 ∧ S'.reuse = [] ∧ S'.maxReuse = mx ∧ S'.base = base := by
  unfold init
  split
  · rename_i e
    have hS : Ok m S := by
      rcases h with h | h
      · exact h
      · exact absurd e h.2
    have := hS.cur_lt
    rw [if_neg (by omega)]
    refine ⟨_, rfl, ⟨?_, ?_, ?_, ?_, ?_, Nat.zero_le _, ?_, ?_⟩, rfl, rfl, rfl, e.1.symm⟩
    · exact hS.base
    · exact hS.size
    · show 0 < S.blocks; omega
    · exact hS.size_pos
    · show 0 = 0 * S.size + 0; simp
    · exact List.nodup_nil
    · intro p hp; cases hp
  · rw [shl1_ok hb]
    refine ⟨_, rfl, ⟨?_, ?_, ?_, ?_, ?_, Nat.zero_le _, ?_, ?_⟩, rfl, rfl, rfl, rfl⟩
    · exact hb
    · rfl
    · show 0 < 0 + 1; omega
    · exact Nat.two_pow_pos _
    · show 0 = 0 * _ + 0; simp
    · exact List.nodup_nil
    · intro p hp; cases hp

theorem add_ok {m : Shift} {S : BM T} (h : Ok m S) : Ok m (add S) := by
  have hpos := h.size_pos
  unfold add
  split
  · rename_i e
    dsimp only
    have hc := h.count
    have ho := h.off_lt
    have hb := h.cur_lt
    split
    · rename_i hle
      have hlast : S.off + 1 = S.size := by omega
      have hcnt : S.count + 1 = (S.cur + 1) * S.size + 0 := by rw [Nat.add_mul]; omega
      unfold enter
      dsimp only
      split
      · refine ⟨h.base, h.size, ?_, hpos, hcnt, h.free_max, h.free_nodup, ?_⟩
        · show S.cur + 1 < S.blocks + 1; omega
        · intro p hp; rw [e] at hp; cases hp
      · refine ⟨h.base, h.size, ?_, hpos, hcnt, h.free_max, h.free_nodup, ?_⟩
        · show S.cur + 1 < S.blocks; omega
        · intro p hp; rw [e] at hp; cases hp
    · refine ⟨h.base, h.size, hb, ?_, ?_, h.free_max, h.free_nodup, ?_⟩
      · show S.off + 1 < S.size; omega
      · show S.count + 1 = S.cur * S.size + (S.off + 1); omega
      · intro p hp; rw [e] at hp; cases hp
  · rename_i p l e
    have hn := h.free_nodup
    rw [e, List.nodup_cons] at hn
    have hmx := h.free_max
    rw [e, List.length_cons] at hmx
    replace hmx : l.length ≤ S.maxReuse := by omega
    exact ⟨h.base, h.size, h.cur_lt, h.off_lt, h.count, hmx, hn.2, fun q hq => h.free_old q (by rw [e]; simp [hq])⟩

/-- Where `add` leaves memory alone: everywhere before the next new address. -/
theorem add_mem {m : Shift} {S : BM T} (h : Ok m S) {p : Ptr} (hv : Valid S p) :
    (add S).mem p = S.mem p ∧ Valid (add S) p := by
  have hpos := h.size_pos
  unfold add
  split
  · dsimp only
    split
    · unfold enter
      dsimp only
      split
      · refine ⟨?_, ?_, hv.2⟩
        · show (if p.1 = S.blocks then none else S.mem p) = S.mem p
          rw [if_neg (by have := hv.1; omega)]
        · show p.1 < S.blocks + 1
          have := hv.1; omega
      · exact ⟨rfl, hv⟩
    · exact ⟨rfl, hv⟩
  · exact ⟨rfl, hv⟩

/-- Number of the element at an address. -/
def ord (S : BM T) (p : Ptr) : Nat := p.1 * S.size + p.2

theorem ord_inj {s : Nat} {p q : Ptr} (hp : p.2 < s) (hq : q.2 < s) (h : p.1 * s + p.2 = q.1 * s + q.2) : p = q := by
  have hs : 0 < s := by omega
  have e1 : p.1 = q.1 := by
    have a : (p.1 * s + p.2) / s = p.1 := by
      rw [Nat.mul_comm, Nat.mul_add_div hs, Nat.div_eq_of_lt hp]; omega
    have b : (q.1 * s + q.2) / s = q.1 := by
      rw [Nat.mul_comm, Nat.mul_add_div hs, Nat.div_eq_of_lt hq]; omega
    rw [← a, ← b, h]
  refine Prod.ext e1 ?_
  rw [e1] at h
  omega

/-- `at` computes the address of element `i`. -/
theorem atAddr_eq {m : Shift} {S : BM T} (h : Ok m S) {i : Nat} (hi : i < S.count) :
    atAddr m S i = some (i / S.size, i % S.size) ∧ Valid S (i / S.size, i % S.size) := by
  have hpos := h.size_pos
  have hb : i / S.size < S.blocks := by
    refine (h.old_valid (p := (i / S.size, i % S.size)) (Nat.mod_lt _ hpos) ?_).1
    show i / S.size * S.size + i % S.size < S.count
    rw [Nat.mul_comm, Nat.div_add_mod]; exact hi
  refine ⟨?_, hb, Nat.mod_lt _ hpos⟩
  have hs : shr m i S.base = some (i / S.size) := by
    rw [h.size]
    have := h.base
    cases m
    · simp only [eff] at this
      simp only [shr, eff]; rw [if_pos (by omega)]
    · rfl
  rw [atAddr, hs]
  show (if i / S.size < S.blocks then some (i / S.size, i &&& (S.size - 1)) else none) = _
  rw [if_pos hb, h.size, Nat.and_two_pow_sub_one_eq_mod]

/-- The visitor. `t` elements have been seen. -/
theorem visits_eq {m : Shift} {S : BM T} (h : Ok m S) :
    ∀ (k t : Nat) (p : Pos), t + k = S.count → p.visited = t →
      (t = 0 → p.block = 0 ∧ p.index = 0) →
      (∀ u, t = u + 1 → p.block = u / S.size ∧ p.index = u % S.size + 1 ∧ p.data = (u / S.size, u % S.size)) →
      ∀ n, k < n → visits S n p = some ((List.range k).map fun j => ((t + j) / S.size, (t + j) % S.size)) := by
  have hpos := h.size_pos
  intro k
  induction k with
  | zero =>
    intro t p ht hv _ _ n hn
    obtain ⟨n, rfl⟩ : ∃ n', n = n' + 1 := ⟨n - 1, by omega⟩
    have : visit S p = .stop := by rw [visit, if_pos (by omega)]
    simp [visits, this]
  | succ k ih =>
    intro t p ht hv h0 h1 n hn
    obtain ⟨n, rfl⟩ : ∃ n', n = n' + 1 := ⟨n - 1, by omega⟩
    have hblk : t / S.size < S.blocks := (atAddr_eq h (i := t) (by omega)).2.1
    have hvis : visit S p = .elem ⟨(t / S.size, t % S.size), t / S.size, t % S.size + 1, t + 1⟩ := by
      rw [visit, if_neg (by omega)]
      cases t with
      | zero =>
        obtain ⟨a, b⟩ := h0 rfl
        have hne : ¬ (0 : Nat) = S.size := by omega
        simp only [a, b, if_neg hne, hv, if_true]
        rw [Nat.zero_div] at hblk
        simp [hblk]
      | succ u =>
        obtain ⟨a, b, c⟩ := h1 u rfl
        by_cases hlast : u % S.size + 1 = S.size
        · have e1 : (u + 1) / S.size = u / S.size + 1 := by
            have := Nat.div_add_mod u S.size
            have e : u + 1 = (u / S.size + 1) * S.size := by rw [Nat.add_mul, Nat.mul_comm]; omega
            rw [e, Nat.mul_div_cancel _ hpos]
          have e2 : (u + 1) % S.size = 0 := by
            have := Nat.div_add_mod u S.size
            have e : u + 1 = (u / S.size + 1) * S.size := by rw [Nat.add_mul, Nat.mul_comm]; omega
            rw [e, Nat.mul_mod_left]
          rw [e1] at hblk
          simp only [a, b, if_pos hlast, hv, if_true, e1, e2, if_pos hblk]
        · have hlt := Nat.mod_lt u hpos
          have e1 : (u + 1) / S.size = u / S.size := by
            have := Nat.div_add_mod u S.size
            have e : u + 1 = S.size * (u / S.size) + (u % S.size + 1) := by omega
            rw [e, Nat.mul_add_div hpos, Nat.div_eq_of_lt (show u % S.size + 1 < S.size by omega)]; omega
          have e2 : (u + 1) % S.size = u % S.size + 1 := by
            have := Nat.div_add_mod u S.size
            have e : u + 1 = S.size * (u / S.size) + (u % S.size + 1) := by omega
            conv_lhs => rw [e]
            rw [Nat.mul_add_mod, Nat.mod_eq_of_lt (by omega)]
          simp only [a, b, c, if_neg hlast, hv, e1, e2, if_neg (Nat.succ_ne_zero _)]
    have := ih (t + 1) ⟨(t / S.size, t % S.size), t / S.size, t % S.size + 1, t + 1⟩ (by omega) rfl
      (fun e => absurd e (by omega))
      (fun u e => by obtain rfl : t = u := by omega
                     exact ⟨rfl, rfl, rfl⟩) n (by omega)
    rw [visits, hvis]
    simp only [this, Option.bind_some, Option.some.injEq]
    rw [List.range_succ_eq_map, List.map_cons, List.map_map]
    congr 1
    apply List.map_congr_left
    intro j _
    show ((t + 1 + j) / S.size, (t + 1 + j) % S.size) = ((t + (j + 1)) / S.size, (t + (j + 1)) % S.size)
    rw [show t + 1 + j = t + (j + 1) by omega]

/-! ### Histories -/

/-- What a user does: append an element, give back the `k`-th of the elements in use, start again. -/
inductive Op (T : Type)
  | push (v : T)
  | release (k : Nat)
  | restart (base : Nat) (useNew : Bool) (maxReuse : Nat)

/-- The user remembers the addresses and values of the elements in use. -/
def Op.run (m : Shift) (s : BM T × List (Ptr × T)) : Op T → Option (BM T × List (Ptr × T))
  | .push v => (store s.1 (get s.1) v).bind fun S => some (add S, s.2 ++ [(get s.1, v)])
  | .release k =>
    match s.2[k]? with
    | some x => some (recycle s.1 x.1, s.2.eraseIdx k)
    | none => some s
  | .restart base un mx => (init m s.1 base un mx).bind fun S => some (S, [])

/-- Elements in use are in place and different from each other and from the recycled ones. -/
structure Live (S : BM T) (l : List (Ptr × T)) : Prop where
  old : ∀ x ∈ l, x.1.2 < S.size ∧ x.1.1 * S.size + x.1.2 < S.count
  holds : ∀ x ∈ l, S.mem x.1 = some x.2
  nodup : (l.map Prod.fst).Nodup
  free : ∀ x ∈ l, x.1 ∉ S.reuse

theorem add_fields {S : BM T} : (add S).size = S.size ∧ (add S).count = (if S.reuse = [] then S.count + 1 else S.count) ∧
    (add S).reuse = S.reuse.tail := by
  unfold add
  split
  · rename_i e
    dsimp only
    split
    · unfold enter; dsimp only; split <;> simp [e]
    · simp [e]
  · rename_i p l e
    simp [e]

theorem push_ok {m : Shift} {S : BM T} {l : List (Ptr × T)} (h : Ok m S) (hl : Live S l) (v : T) :
    ∃ S', Op.run m (S, l) (.push v) = some (S', l ++ [(get S, v)]) ∧ Ok m S' ∧ Live S' (l ++ [(get S, v)]) ∧
      get S ∉ l.map Prod.fst := by
  have hv := h.get_valid
  have hst : store S (get S) v = some { S with mem := Function.update S.mem (get S) (some v) } := by
    rw [store, if_pos hv]
  let S1 : BM T := { S with mem := Function.update S.mem (get S) (some v) }
  have h1 : Ok m S1 := ⟨h.base, h.size, h.cur_lt, h.off_lt, h.count, h.free_max, h.free_nodup, h.free_old⟩
  have hnew : ∀ x ∈ l, x.1 ≠ get S := by
    intro x hx e
    unfold get at e
    split at e
    · rename_i p l' er
      exact hl.free x hx (by rw [er, e]; simp)
    · have := (hl.old x hx).2
      rw [e, h.count] at this
      exact absurd this (Nat.lt_irrefl _)
  have hgo : (get S).2 < S.size ∧ (get S).1 * S.size + (get S).2 < (add S1).count ∧ get S ∉ (add S1).reuse := by
    refine ⟨hv.2, ?_, ?_⟩
    · rw [(add_fields (S := S1)).2.1]
      show _ < if S.reuse = [] then S.count + 1 else S.count
      unfold get
      split
      · rename_i p l' er
        have := (h.free_old p (by rw [er]; simp)).2
        rw [if_neg (by rw [er]; simp)]; exact this
      · rename_i er
        rw [if_pos er, h.count]
        exact Nat.lt_succ_self _
    · rw [(add_fields (S := S1)).2.2]
      show get S ∉ S.reuse.tail
      have hn := h.free_nodup
      unfold get
      split
      · rename_i p l' er
        rw [er, List.nodup_cons] at hn
        rw [er]; exact hn.1
      · rename_i er
        rw [er]; simp
  refine ⟨add S1, ?_, add_ok h1, ⟨?_, ?_, ?_, ?_⟩, ?_⟩
  · simp only [Op.run, hst, Option.bind_some]; rfl
  · intro x hx
    rw [(add_fields (S := S1)).1]
    rcases List.mem_append.1 hx with hx | hx
    · have := hl.old x hx
      refine ⟨this.1, ?_⟩
      rw [(add_fields (S := S1)).2.1]
      show _ < if S.reuse = [] then S.count + 1 else S.count
      show x.1.1 * S.size + x.1.2 < _
      split <;> omega
    · rw [List.mem_singleton] at hx
      subst hx
      exact ⟨hgo.1, hgo.2.1⟩
  · intro x hx
    rcases List.mem_append.1 hx with hx | hx
    · have ho := hl.old x hx
      have hval : Valid S1 x.1 := h.old_valid ho.1 ho.2
      rw [(add_mem h1 hval).1]
      show Function.update S.mem (get S) (some v) x.1 = some x.2
      rw [Function.update_of_ne (hnew x hx)]
      exact hl.holds x hx
    · rw [List.mem_singleton] at hx
      subst hx
      rw [(add_mem h1 (show Valid S1 (get S) from hv)).1]
      show Function.update S.mem (get S) (some v) (get S) = some v
      simp
  · rw [List.map_append, List.nodup_append]
    refine ⟨hl.nodup, by simp, ?_⟩
    intro a ha b hb
    obtain ⟨x, hx, rfl⟩ := List.mem_map.1 ha
    simp only [List.map_cons, List.map_nil, List.mem_singleton] at hb
    rw [hb]; exact hnew x hx
  · intro x hx
    rcases List.mem_append.1 hx with hx | hx
    · rw [(add_fields (S := S1)).2.2]
      intro hm
      exact hl.free x hx (List.mem_of_mem_tail hm)
    · rw [List.mem_singleton] at hx
      subst hx
      exact hgo.2.2
  · intro hm
    obtain ⟨x, hx, e⟩ := List.mem_map.1 hm
    exact hnew x hx e

theorem release_ok {m : Shift} {S : BM T} {l : List (Ptr × T)} (h : Ok m S) (hl : Live S l) (k : Nat) :
    ∃ S' l', Op.run m (S, l) (.release k) = some (S', l') ∧ Ok m S' ∧ Live S' l' ∧ l' = l.eraseIdx k := by
  by_cases hk : k < l.length
  · have e : l[k]? = some l[k] := by simp [hk]
    have hrun : Op.run m (S, l) (.release k) = some (recycle S l[k].1, l.eraseIdx k) := by simp only [Op.run, e]
    have hsub : ∀ x ∈ l.eraseIdx k, x ∈ l := fun x hx => List.mem_of_mem_eraseIdx hx
    have hx0 : l[k] ∈ l := List.getElem_mem hk
    have hne : ∀ x ∈ l.eraseIdx k, x.1 ≠ l[k].1 := by
      intro x hx e
      rw [List.mem_eraseIdx_iff_getElem] at hx
      obtain ⟨i, hi, hik, rfl⟩ := hx
      have hn := hl.nodup
      rw [List.nodup_iff_injective_getElem] at hn
      have := @hn ⟨i, by simpa using hi⟩ ⟨k, by simpa using hk⟩ (by simpa using e)
      simp only [Fin.mk.injEq] at this
      omega
    have hnd : ((l.eraseIdx k).map Prod.fst).Nodup := hl.nodup.sublist ((List.eraseIdx_sublist l k).map _)
    refine ⟨_, _, hrun, ?_, ?_, rfl⟩
    · unfold recycle
      split
      · refine ⟨h.base, h.size, h.cur_lt, h.off_lt, h.count, ?_, ?_, ?_⟩
        · rw [List.length_cons]; dsimp only; omega
        · exact List.nodup_cons.2 ⟨hl.free _ hx0, h.free_nodup⟩
        · intro p hp
          rcases List.mem_cons.1 hp with rfl | hp
          · exact hl.old _ hx0
          · exact h.free_old p hp
      · exact h
    · unfold recycle
      split
      · refine ⟨fun x hx => hl.old x (hsub x hx), fun x hx => hl.holds x (hsub x hx), hnd, fun x hx hm => ?_⟩
        rcases List.mem_cons.1 hm with e | hm
        · exact hne x hx e
        · exact hl.free x (hsub x hx) hm
      · exact ⟨fun x hx => hl.old x (hsub x hx), fun x hx => hl.holds x (hsub x hx), hnd,
          fun x hx => hl.free x (hsub x hx)⟩
  · have e : l[k]? = none := by simp; omega
    refine ⟨S, l, by simp only [Op.run, e], h, hl, ?_⟩
    rw [List.eraseIdx_of_length_le (by omega)]

end Verif.Block
