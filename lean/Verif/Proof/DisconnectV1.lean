import Verif.Proof.CutV1
import Verif.Proof.Connect

/-!
# Fast MSER V1: what `disconnect` and `append` do to memory
-/

namespace Verif.V1

open Function (update)
open Verif.Connect (chase)

variable {ι : Type} [DecidableEq ι]

theorem setNext_other (pts : Nat → Point) (c v : Option Nat) (a : Nat) : (setNext pts c v a).ref = (pts a).ref ∧
    (setNext pts c v a).x = (pts a).x ∧ (setNext pts c v a).y = (pts a).y := by
  cases c with
  | none => simp [setNext]
  | some c =>
    by_cases e : a = c
    · subst e; simp [setNext]
    · simp [setNext, Function.update_of_ne e]

theorem setPrev_other (pts : Nat → Point) (c v : Option Nat) (a : Nat) : (setPrev pts c v a).ref = (pts a).ref ∧
    (setPrev pts c v a).x = (pts a).x ∧ (setPrev pts c v a).y = (pts a).y := by
  cases c with
  | none => simp [setPrev]
  | some c =>
    by_cases e : a = c
    · subst e; simp [setPrev]
    · simp [setPrev, Function.update_of_ne e]

theorem unlink_other (pts : Nat → Point) (h t a : Nat) : (unlink pts h t a).ref = (pts a).ref ∧
    (unlink pts h t a).x = (pts a).x ∧ (unlink pts h t a).y = (pts a).y := by
  unfold unlink
  have h1 := setNext_other pts (pts h).prev (pts t).next a
  have h2 := setPrev_other (setNext pts (pts h).prev (pts t).next) (setNext pts (pts h).prev (pts t).next t).next
    (setNext pts (pts h).prev (pts t).next h).prev a
  exact ⟨h2.1.trans h1.1, h2.2.1.trans h1.2.1, h2.2.2.trans h1.2.2⟩

theorem unlink_prev_head (pts : Nat → Point) (h t : Nat) : (unlink pts h t h).prev = (pts h).prev := by
  have hN : ∀ b, (setNext pts (pts h).prev (pts t).next b).prev = (pts b).prev := by
    intro b
    cases hp : (pts h).prev with
    | none => simp [setNext]
    | some c =>
      by_cases e : b = c
      · subst e; simp [setNext]
      · simp [setNext, Function.update_of_ne e]
  unfold unlink
  generalize hq : setNext pts (pts h).prev (pts t).next = q at hN ⊢
  cases (q t).next with
  | none => exact hN h
  | some c =>
    by_cases e : h = c
    · subst e; simp only [setPrev, Function.update_self]; exact hN h
    · simp only [setPrev, Function.update_of_ne e]; exact hN h

/-- Only successor and predecessor are changed by the last two assignments of `disconnect`. -/
theorem sealed_other (pts : Nat → Point) (h t : Nat) :
    let pts' := update pts h { pts h with prev := none }
    let pts'' := update pts' t { pts' t with next := none }
    (∀ a, (pts'' a).ref = (pts a).ref ∧ (pts'' a).x = (pts a).x ∧ (pts'' a).y = (pts a).y) := by
  intro pts' pts'' a
  have h1 : (pts' a).ref = (pts a).ref ∧ (pts' a).x = (pts a).x ∧ (pts' a).y = (pts a).y := by
    by_cases e : a = h
    · subst e; simp [pts']
    · simp [pts', Function.update_of_ne e]
  have h2 : (pts'' a).ref = (pts' a).ref ∧ (pts'' a).x = (pts' a).x ∧ (pts'' a).y = (pts' a).y := by
    by_cases e : a = t
    · subst e; simp [pts'']
    · simp [pts'', Function.update_of_ne e]
  exact ⟨h2.1.trans h1.1, h2.2.1.trans h1.2.1, h2.2.2.trans h1.2.2⟩

/-- Successors and predecessors after the last two assignments, as functions of those before. -/
theorem sealed_links (pts qts : Nat → Point) (h t : Nat) (hn : nx pts = nx qts) (hp : pv pts = pv qts) :
    let pts' := update pts h { pts h with prev := none }
    let pts'' := update pts' t { pts' t with next := none }
    let qts' := update qts h { qts h with prev := none }
    let qts'' := update qts' t { qts' t with next := none }
    nx pts'' = nx qts'' ∧ pv pts'' = pv qts'' := by
  have key : ∀ pts : Nat → Point,
      let pts' := update pts h { pts h with prev := none }
      let pts'' := update pts' t { pts' t with next := none }
      nx pts'' = update (nx pts) t none ∧ pv pts'' = update (pv pts) h none := by
    intro pts pts' pts''
    constructor
    · funext a
      by_cases e : a = t
      · subst e; simp [nx, pts'']
      · rw [Function.update_of_ne e]
        simp only [nx, pts'', Function.update_of_ne e, pts']
        by_cases e' : a = h
        · subst e'; simp
        · simp [Function.update_of_ne e']
    · funext a
      have : (pts'' a).prev = (pts' a).prev := by
        by_cases e : a = t
        · subst e; simp [pts'']
        · simp [pts'', Function.update_of_ne e]
      simp only [pv, this, pts']
      by_cases e' : a = h
      · subst e'; simp
      · simp [Function.update_of_ne e', pv]
  intro pts' pts'' qts' qts''
  obtain ⟨a1, a2⟩ := key pts
  obtain ⟨b1, b2⟩ := key qts
  exact ⟨by rw [show nx pts'' = _ from a1, show nx qts'' = _ from b1, hn], by rw [show pv pts'' = _ from a2, show pv qts'' = _ from b2, hp]⟩

omit [DecidableEq ι] in
theorem chase_id {M : Mem ι} {fuel : Nat} {o : Option ι} (ho : ∀ x, o = some x → (M.regs x).merged = false) :
    chase M.forest fuel o = some o := by
  cases o with
  | none => simp [chase]
  | some x =>
    have : (M.forest x).merged = false := ho x rfl
    cases fuel <;> simp [chase, this]

/-- Nothing happens if the parent is not merged. -/
theorem getSetParent_id {M : Mem ι} {fuel : Nat} {r : ι} {o : Option ι} (hr : (M.regs r).parent = o)
    (ho : ∀ x, o = some x → (M.regs x).merged = false) : getSetParent fuel M r = some (M, o) := by
  unfold getSetParent
  rw [hr, chase_id ho]
  subst hr
  simp

/-- The parts of memory no list operation changes. -/
structure SameShape (M M' : Mem ι) : Prop where
  gray : ∀ q, (M'.regs q).gray = (M.regs q).gray
  parent : ∀ q, (M'.regs q).parent = (M.regs q).parent
  merged : ∀ q, (M'.regs q).merged = (M.regs q).merged
  patch : ∀ q, (M'.regs q).patch = (M.regs q).patch
  merges : M'.merges = M.merges

omit [DecidableEq ι] in
theorem SameShape.refl (M : Mem ι) : SameShape M M := ⟨fun _ => rfl, fun _ => rfl, fun _ => rfl, fun _ => rfl, rfl⟩

omit [DecidableEq ι] in
theorem SameShape.trans {M M' M'' : Mem ι} (h : SameShape M M') (h' : SameShape M' M'') : SameShape M M'' :=
  ⟨fun q => (h'.gray q).trans (h.gray q), fun q => (h'.parent q).trans (h.parent q),
   fun q => (h'.merged q).trans (h.merged q), fun q => (h'.patch q).trans (h.patch q), h'.merges.trans h.merges⟩

/-- What `disconnect(r)` does: `t` is the real tail of `r`, `o` its parent. -/
structure Cut (M M' : Mem ι) (r : ι) (o : Option ι) (t : Nat) : Prop where
  shape : SameShape M M'
  next : nx M'.pts = cutN (nx M.pts) t (pv M.pts (M.regs r).head) (nx M.pts t)
  prev : pv M'.pts = cutP (pv M.pts) (M.regs r).head (pv M.pts (M.regs r).head) (nx M.pts t)
  xy : ∀ a, (M'.pts a).x = (M.pts a).x ∧ (M'.pts a).y = (M.pts a).y
  head : ∀ q, (M'.regs q).head = (M.regs q).head
  tail : ∀ q, (M'.regs q).tail = if q = r then t else (M.regs q).tail
  size : ∀ q, (M'.regs q).size = if o = some q then (M.regs q).size - (M.regs r).unmerged else (M.regs q).size
  unmerged : ∀ q, (M'.regs q).unmerged = (M.regs q).unmerged
  rect : ∀ q, (M'.regs q).rect = (M.regs q).rect
  root : o = none → rf M'.pts = short (rf M.pts) (M.regs r).tail t ∧ M'.mp = M.mp
  same : ∀ q u j, o = some q → Reaches (rf M.pts) j (M.regs q).tail u → u = t →
    rf M'.pts = update (short (short (rf M.pts) (M.regs r).tail t) (M.regs q).tail u) t (pv M.pts (M.regs r).head) ∧
      M'.mp = t :: M.mp
  other : ∀ q u j, o = some q → Reaches (rf M.pts) j (M.regs q).tail u → u ≠ t →
    rf M'.pts = short (short (rf M.pts) (M.regs r).tail t) (M.regs q).tail u ∧ M'.mp = M.mp

theorem disconnect_spec {M : Mem ι} {r : ι} {o : Option ι} {t k fuel : Nat}
    (h1 : Reaches (rf M.pts) k (M.regs r).tail t) (hk : k ≤ fuel) (hpar : (M.regs r).parent = o)
    (hol : ∀ x, o = some x → (M.regs x).merged = false)
    (ho : ∀ q, o = some q → q ≠ r ∧ ∃ j ≤ fuel, ∃ u, Reaches (rf M.pts) j (M.regs q).tail u) :
    ∃ M', disconnect fuel M r = some M' ∧ Cut M M' r o t := by
  obtain ⟨pts1, a1, a2, a3, a4, a5⟩ := getRealTail_spec h1 hk
  have hpv : (pts1 (M.regs r).head).prev = pv M.pts (M.regs r).head := congrFun a4 _
  have u1 : rf (unlink pts1 (M.regs r).head t) = rf pts1 := by
    funext a; exact (unlink_other _ _ _ a).1
  have u2 : ∀ a, (unlink pts1 (M.regs r).head t a).x = (M.pts a).x ∧ (unlink pts1 (M.regs r).head t a).y = (M.pts a).y := by
    intro a
    have := unlink_other pts1 (M.regs r).head t a
    exact ⟨this.2.1.trans (a5 a).1, this.2.2.trans (a5 a).2⟩
  obtain ⟨w1, w2⟩ := unlink_spec pts1 (M.regs r).head t
  have hnt : nx pts1 t = nx M.pts t := by rw [a3]
  have hpt : pv pts1 (M.regs r).head = pv M.pts (M.regs r).head := by rw [a4]
  rw [hnt, hpt, a3] at w1
  rw [hnt, hpt, a4] at w2
  unfold disconnect
  rw [a1]
  dsimp only
  rw [getSetParent_id (M := { M with pts := unlink pts1 (M.regs r).head t }) hpar hol]
  dsimp only
  cases o with
  | none =>
    dsimp only
    refine ⟨_, rfl, ?_⟩
    have s1 := sealed_other (unlink pts1 (M.regs r).head t) (M.regs r).head t
    refine ⟨⟨?_, ?_, ?_, ?_, rfl⟩, w1, w2, ?_, ?_, ?_, ?_, ?_, ?_, ?_, ?_, ?_⟩
    · intro q; dsimp only
      by_cases e : q = r
      · subst e; simp
      · rw [Function.update_of_ne e]
    · intro q; dsimp only
      by_cases e : q = r
      · subst e; simp
      · rw [Function.update_of_ne e]
    · intro q; dsimp only
      by_cases e : q = r
      · subst e; simp
      · rw [Function.update_of_ne e]
    · intro q; dsimp only
      by_cases e : q = r
      · subst e; simp
      · rw [Function.update_of_ne e]
    · intro a; exact ⟨(s1 a).2.1.trans (u2 a).1, (s1 a).2.2.trans (u2 a).2⟩
    · intro q; dsimp only
      by_cases e : q = r
      · subst e; simp
      · rw [Function.update_of_ne e]
    · intro q; dsimp only
      by_cases e : q = r
      · subst e; simp
      · rw [Function.update_of_ne e, if_neg e]
    · intro q; dsimp only
      by_cases e : q = r
      · subst e; simp
      · rw [Function.update_of_ne e]; simp
    · intro q; dsimp only
      by_cases e : q = r
      · subst e; simp
      · rw [Function.update_of_ne e]
    · intro q; dsimp only
      by_cases e : q = r
      · subst e; simp
      · rw [Function.update_of_ne e]
    · intro _
      refine ⟨?_, rfl⟩
      rw [← a2, ← u1]
      funext a; exact (s1 a).1
    · intro q u j hq; simp at hq
    · intro q u j hq; simp at hq
  | some q0 =>
    obtain ⟨hqr, j, hj, u, hu⟩ := ho q0 rfl
    obtain ⟨j', hj', hu'⟩ := short_reaches h1 _ _ _ hu
    rw [← a2, ← u1] at hu'
    obtain ⟨pts2, b1, b2, b3, b4, b5⟩ := getRealTail_spec hu' (show j' ≤ fuel by omega)
    dsimp only
    rw [b1]
    dsimp only
    rw [u1, a2] at b2
    have hprev : (pts2 (M.regs r).head).prev = pv M.pts (M.regs r).head := by
      have e1 : pv pts2 (M.regs r).head = pv (unlink pts1 (M.regs r).head t) (M.regs r).head := by rw [b4]
      have e2 := unlink_prev_head pts1 (M.regs r).head t
      rw [← hpv, ← e2]; exact e1
    -- the two outcomes of the test in line 2391
    by_cases hut : u = t
    · rw [if_pos (Or.inr hut)]
      dsimp only
      refine ⟨_, rfl, ?_⟩
      generalize hp3 : update pts2 t { pts2 t with ref := (pts2 (M.regs r).head).prev } = pts3
      have c1 : nx pts3 = nx (unlink pts1 (M.regs r).head t) := by
        rw [← b3, ← hp3]; funext a
        by_cases e : a = t
        · subst e; simp [nx]
        · simp [nx, Function.update_of_ne e]
      have c2 : pv pts3 = pv (unlink pts1 (M.regs r).head t) := by
        rw [← b4, ← hp3]; funext a
        by_cases e : a = t
        · subst e; simp [pv]
        · simp [pv, Function.update_of_ne e]
      have c3 : ∀ a, (pts3 a).x = (M.pts a).x ∧ (pts3 a).y = (M.pts a).y := by
        intro a
        rw [← hp3, ← (u2 a).1, ← (u2 a).2, ← (b5 a).1, ← (b5 a).2]
        by_cases e : a = t
        · subst e; simp
        · simp [Function.update_of_ne e]
      have c4 : rf pts3 = update (rf pts2) t (pv M.pts (M.regs r).head) := by
        rw [← hprev, ← hp3]; funext a
        by_cases e : a = t
        · subst e; simp [rf]
        · simp [rf, Function.update_of_ne e]
      have s1 := sealed_other pts3 (M.regs r).head t
      obtain ⟨s2, s3⟩ := sealed_links pts3 _ (M.regs r).head t c1 c2
      refine ⟨⟨?_, ?_, ?_, ?_, rfl⟩, s2.trans w1, s3.trans w2, ?_, ?_, ?_, ?_, ?_, ?_, ?_, ?_, ?_⟩
      · intro q; dsimp only
        by_cases e : q = r
        · subst e; simp [Function.update_of_ne (Ne.symm hqr)]
        · rw [Function.update_of_ne e]
          by_cases e' : q = q0
          · subst e'; simp
          · rw [Function.update_of_ne e']
      · intro q; dsimp only
        by_cases e : q = r
        · subst e; simp [Function.update_of_ne (Ne.symm hqr)]
        · rw [Function.update_of_ne e]
          by_cases e' : q = q0
          · subst e'; simp
          · rw [Function.update_of_ne e']
      · intro q; dsimp only
        by_cases e : q = r
        · subst e; simp [Function.update_of_ne (Ne.symm hqr)]
        · rw [Function.update_of_ne e]
          by_cases e' : q = q0
          · subst e'; simp
          · rw [Function.update_of_ne e']
      · intro q; dsimp only
        by_cases e : q = r
        · subst e; simp [Function.update_of_ne (Ne.symm hqr)]
        · rw [Function.update_of_ne e]
          by_cases e' : q = q0
          · subst e'; simp
          · rw [Function.update_of_ne e']
      · intro a; exact ⟨(s1 a).2.1.trans (c3 a).1, (s1 a).2.2.trans (c3 a).2⟩
      · intro q; dsimp only
        by_cases e : q = r
        · subst e; simp [Function.update_of_ne (Ne.symm hqr)]
        · rw [Function.update_of_ne e]
          by_cases e' : q = q0
          · subst e'; simp
          · rw [Function.update_of_ne e']
      · intro q; dsimp only
        by_cases e : q = r
        · subst e; simp
        · rw [Function.update_of_ne e, if_neg e]
          by_cases e' : q = q0
          · subst e'; simp
          · rw [Function.update_of_ne e']
      · intro q; dsimp only
        by_cases e : q = r
        · subst e; simp [Function.update_of_ne (Ne.symm hqr), hqr]
        · rw [Function.update_of_ne e]
          by_cases e' : q = q0
          · subst e'; simp
          · rw [Function.update_of_ne e', if_neg (by simpa using fun h => e' h.symm)]
      · intro q; dsimp only
        by_cases e : q = r
        · subst e; simp [Function.update_of_ne (Ne.symm hqr)]
        · rw [Function.update_of_ne e]
          by_cases e' : q = q0
          · subst e'; simp
          · rw [Function.update_of_ne e']
      · intro q; dsimp only
        by_cases e : q = r
        · subst e; simp [Function.update_of_ne (Ne.symm hqr)]
        · rw [Function.update_of_ne e]
          by_cases e' : q = q0
          · subst e'; simp
          · rw [Function.update_of_ne e']
      · intro h; simp at h
      · intro q v i hq hv hvt
        obtain rfl := Option.some.inj hq
        refine ⟨?_, rfl⟩
        have e : u = v := by rw [hut, hvt]
        subst e
        rw [← b2, ← c4]
        funext a; exact (s1 a).1
      · intro q v i hq hv hvt
        obtain rfl := Option.some.inj hq
        exact absurd ((hv.det hu).2.trans hut) hvt
    · have hcond : ¬ ((M.regs r).tail = (M.regs q0).tail ∨ u = t) := by
        rintro (e | e)
        · rw [← e] at hu; exact hut (hu.det h1).2
        · exact hut e
      rw [if_neg hcond]
      dsimp only
      refine ⟨_, rfl, ?_⟩
      have c3 : ∀ a, (pts2 a).x = (M.pts a).x ∧ (pts2 a).y = (M.pts a).y := by
        intro a
        rw [← (u2 a).1, ← (u2 a).2]; exact b5 a
      have s1 := sealed_other pts2 (M.regs r).head t
      obtain ⟨s2, s3⟩ := sealed_links pts2 _ (M.regs r).head t b3 b4
      refine ⟨⟨?_, ?_, ?_, ?_, rfl⟩, s2.trans w1, s3.trans w2, ?_, ?_, ?_, ?_, ?_, ?_, ?_, ?_, ?_⟩
      · intro q; dsimp only
        by_cases e : q = r
        · subst e; simp [Function.update_of_ne (Ne.symm hqr)]
        · rw [Function.update_of_ne e]
          by_cases e' : q = q0
          · subst e'; simp
          · rw [Function.update_of_ne e']
      · intro q; dsimp only
        by_cases e : q = r
        · subst e; simp [Function.update_of_ne (Ne.symm hqr)]
        · rw [Function.update_of_ne e]
          by_cases e' : q = q0
          · subst e'; simp
          · rw [Function.update_of_ne e']
      · intro q; dsimp only
        by_cases e : q = r
        · subst e; simp [Function.update_of_ne (Ne.symm hqr)]
        · rw [Function.update_of_ne e]
          by_cases e' : q = q0
          · subst e'; simp
          · rw [Function.update_of_ne e']
      · intro q; dsimp only
        by_cases e : q = r
        · subst e; simp [Function.update_of_ne (Ne.symm hqr)]
        · rw [Function.update_of_ne e]
          by_cases e' : q = q0
          · subst e'; simp
          · rw [Function.update_of_ne e']
      · intro a; exact ⟨(s1 a).2.1.trans (c3 a).1, (s1 a).2.2.trans (c3 a).2⟩
      · intro q; dsimp only
        by_cases e : q = r
        · subst e; simp [Function.update_of_ne (Ne.symm hqr)]
        · rw [Function.update_of_ne e]
          by_cases e' : q = q0
          · subst e'; simp
          · rw [Function.update_of_ne e']
      · intro q; dsimp only
        by_cases e : q = r
        · subst e; simp
        · rw [Function.update_of_ne e, if_neg e]
          by_cases e' : q = q0
          · subst e'; simp
          · rw [Function.update_of_ne e']
      · intro q; dsimp only
        by_cases e : q = r
        · subst e; simp [Function.update_of_ne (Ne.symm hqr), hqr]
        · rw [Function.update_of_ne e]
          by_cases e' : q = q0
          · subst e'; simp
          · rw [Function.update_of_ne e', if_neg (by simpa using fun h => e' h.symm)]
      · intro q; dsimp only
        by_cases e : q = r
        · subst e; simp [Function.update_of_ne (Ne.symm hqr)]
        · rw [Function.update_of_ne e]
          by_cases e' : q = q0
          · subst e'; simp
          · rw [Function.update_of_ne e']
      · intro q; dsimp only
        by_cases e : q = r
        · subst e; simp [Function.update_of_ne (Ne.symm hqr)]
        · rw [Function.update_of_ne e]
          by_cases e' : q = q0
          · subst e'; simp
          · rw [Function.update_of_ne e']
      · intro h; simp at h
      · intro q v i hq hv hvt
        obtain rfl := Option.some.inj hq
        exact absurd ((hu.det hv).2.trans hvt) hut
      · intro q v i hq hv hvt
        obtain rfl := Option.some.inj hq
        refine ⟨?_, rfl⟩
        obtain rfl := (hu.det hv).2
        rw [← b2]
        funext a; exact (s1 a).1

/-- `disconnect` stores the real parent first. -/
theorem disconnect_parent {M : Mem ι} {r : ι} {o : Option ι} {fuel : Nat}
    (hch : chase M.forest fuel (M.regs r).parent = some o) (hol : ∀ x, o = some x → (M.regs x).merged = false)
    (hne : o ≠ some r) :
    disconnect fuel M r = disconnect fuel { M with regs := update M.regs r { M.regs r with parent := o } } r := by
  unfold disconnect
  simp only [Function.update_self]
  cases getRealTail fuel M.pts (M.regs r).tail with
  | none => rfl
  | some x =>
    obtain ⟨pts, rt⟩ := x
    dsimp only
    have e1 : getSetParent fuel { M with pts := unlink pts (M.regs r).head rt } r =
        some ({ M with regs := update M.regs r { M.regs r with parent := o }, pts := unlink pts (M.regs r).head rt }, o) := by
      unfold getSetParent
      have : Mem.forest { M with pts := unlink pts (M.regs r).head rt } = M.forest := rfl
      dsimp only
      rw [this, hch]
    have e2 : getSetParent fuel { M with regs := update M.regs r { M.regs r with parent := o }, pts := unlink pts (M.regs r).head rt } r =
        some ({ M with regs := update M.regs r { M.regs r with parent := o }, pts := unlink pts (M.regs r).head rt }, o) := by
      refine getSetParent_id (by simp) ?_
      intro x hx
      have : x ≠ r := by rintro rfl; exact hne hx
      dsimp only
      rw [Function.update_of_ne this]; exact hol x hx
    rw [e1, e2]

/-- What `append` does to the links. -/
theorem append_links (M : Mem ι) (b s : ι) :
    nx (append M b s).pts = update (nx M.pts) (M.regs b).tail (some (M.regs s).head) ∧
    pv (append M b s).pts = update (pv M.pts) (M.regs s).head (some (M.regs b).tail) ∧
    (∀ a, ((append M b s).pts a).ref = (M.pts a).ref ∧ ((append M b s).pts a).x = (M.pts a).x ∧
      ((append M b s).pts a).y = (M.pts a).y) := by
  unfold append
  dsimp only
  generalize (M.regs b).tail = t
  generalize (M.regs s).head = h
  generalize hp : update M.pts t { M.pts t with next := some h } = p1
  have e1 : ∀ a, (p1 a).next = update (nx M.pts) t (some h) a ∧ (p1 a).prev = (M.pts a).prev ∧
      (p1 a).ref = (M.pts a).ref ∧ (p1 a).x = (M.pts a).x ∧ (p1 a).y = (M.pts a).y := by
    intro a; subst hp
    by_cases e : a = t
    · subst e; simp
    · simp [Function.update_of_ne e, nx]
  refine ⟨?_, ?_, ?_⟩
  · funext a
    by_cases e : a = h
    · subst e; simp only [nx, Function.update_self]; exact (e1 a).1
    · simp only [nx, Function.update_of_ne e]; exact (e1 a).1
  · funext a
    by_cases e : a = h
    · subst e; simp [pv]
    · simp only [pv, Function.update_of_ne e]; exact (e1 a).2.1
  · intro a
    by_cases e : a = h
    · subst e; simp only [Function.update_self]; exact (e1 a).2.2
    · simp only [Function.update_of_ne e]; exact (e1 a).2.2

end Verif.V1
