import Verif.Proof.Ownership

/-!
# Copies of results (C38) and using a result again (C59)

The statements compare the model with the meaning of the operations: every object has a value of its own.
-/

namespace Verif.Props

open Verif.Ownership

/-- The values of all objects. -/
abbrev Store := Nat → Option (List Val × List Val)

def Store.put (A : Store) (n : Nat) (x : Option (List Val × List Val)) : Store := fun k => if k = n then x else A k

/-- The meaning of an operation. -/
def meaning (A : Store) : Op → Store
  | .create n => if (A n).isSome then A else A.put n (some ([], []))
  | .extractOwn n _ _ vs0 vs1 => if (A n).isSome then A.put n (some (vs0, vs1)) else A
  | .extractShared n _ _ vs0 vs1 => if (A n).isSome then A.put n (some (vs0, vs1)) else A
  | .copy n m => if (A n).isNone ∧ (A m).isSome then A.put n (A m) else A
  | .assign n m _ _ => if (A n).isSome ∧ (A m).isSome then A.put n (A m) else A
  | .destroy n => A.put n none

def meanings (A : Store) : List Op → Store
  | [] => A
  | o :: os => meanings (meaning A o) os

/-- C38 for a history: nothing undefined happens, and every object shows its value. -/
def CopiesValid (ops : List Op) : Prop :=
  ∃ S, runs .init ops = some S ∧
    ∀ n, (S.objs n).map (readRes S.heap) = (meanings (fun _ => none) ops n).map some

/-- The operation is not applied to a result with common memory, except for destroying it; `sh` tells which objects
these are. -/
def Careful (sh : Nat → Bool) : Op → Prop
  | .create _ => True
  | .extractOwn n _ _ _ _ => sh n = false
  | .extractShared n _ _ _ _ => sh n = false
  | .copy _ m => sh m = false
  | .assign n m _ _ => sh n = false ∧ sh m = false
  | .destroy _ => True

/-- Which objects have common memory afterwards (when `A` tells the objects that exist). -/
def shares (A : Store) (sh : Nat → Bool) : Op → Nat → Bool
  | .extractShared n _ _ _ _ => if (A n).isSome then fun k => if k = n then true else sh k else sh
  | .destroy n => fun k => if k = n then false else sh k
  | _ => sh

def CarefulAll (A : Store) (sh : Nat → Bool) : List Op → Prop
  | [] => True
  | o :: os => Careful sh o ∧ CarefulAll (meaning A o) (shares A sh o) os

/-- The blocks of an object, and what it shows. -/
def blocksOf (sh : Bool) (r : Res) : List Nat := if sh then ownsS r else ownsR r

def Shown (h : Heap) (sh : Bool) (r : Res) (v : List Val × List Val) : Prop :=
  if sh then HoldsS h r v else HoldsR h r v

theorem Shown.lt {h : Heap} {sh : Bool} {r : Res} {v : List Val × List Val} (hf : Fresh h) (H : Shown h sh r v) :
    ∀ b ∈ blocksOf sh r, b < h.next := by
  cases sh with
  | true => exact HoldsS.lt hf H
  | false => exact HoldsR.lt hf H

theorem Shown.frame {h h' : Heap} {sh : Bool} {r : Res} {v : List Val × List Val} (H : Shown h sh r v)
    (hf : ∀ b ∈ blocksOf sh r, h'.blocks b = h.blocks b) : Shown h' sh r v := by
  cases sh with
  | true => exact HoldsS.frame H hf
  | false => exact HoldsR.frame H hf

theorem Shown.read {h : Heap} {sh : Bool} {r : Res} {v : List Val × List Val} (H : Shown h sh r v) :
    readRes h r = some v := by
  cases sh with
  | true => exact HoldsS.read H
  | false => exact HoldsR.read H

/-- Between operations. -/
structure Owned (S : Sys) (A : Store) (sh : Nat → Bool) : Prop where
  fresh : Fresh S.heap
  present : ∀ n r, S.objs n = some r → ∃ v, A n = some v ∧ Shown S.heap (sh n) r v
  absent : ∀ n, S.objs n = none → A n = none ∧ sh n = false
  apart : ∀ n m r r', n ≠ m → S.objs n = some r → S.objs m = some r' → ∀ b ∈ blocksOf (sh n) r, b ∉ blocksOf (sh m) r'
  noLeak : ∀ b, S.heap.blocks b ≠ none → ∃ n r, S.objs n = some r ∧ b ∈ blocksOf (sh n) r

/-- Replacing an object. -/
theorem Owned.put {S : Sys} {A : Store} {sh : Nat → Bool} (I : Owned S A sh) {n : Nat} {h' : Heap} {D : List Nat} {r : Res}
    {v : List Val × List Val} {s : Bool} (hD : ∀ m r', m ≠ n → S.objs m = some r' → ∀ b ∈ blocksOf (sh m) r', b ∉ D)
    (hDn : ∀ r', S.objs n = some r' → ∀ b ∈ blocksOf (sh n) r', b ∈ D)
    (st : Step S.heap h' D (blocksOf s r)) (hv : Shown h' s r v) :
    Owned (S.put h' n (some r)) (A.put n (some v)) (fun k => if k = n then s else sh k) := by
  have old : ∀ m r', m ≠ n → S.objs m = some r' →
      ∃ w, A m = some w ∧ Shown h' (sh m) r' w := by
    intro m r' hm hr
    obtain ⟨w, hw, H⟩ := I.present m r' hr
    exact ⟨w, hw, H.frame fun b hb => st.2.2.1 b (H.lt I.fresh b hb) (hD m r' hm hr b hb)⟩
  have new : ∀ m r', m ≠ n → S.objs m = some r' → ∀ b ∈ blocksOf (sh m) r', b ∉ blocksOf s r := by
    intro m r' hm hr b hb hb'
    obtain ⟨w, hw, H⟩ := I.present m r' hr
    have := H.lt I.fresh b hb
    have := st.2.2.2.1 b hb'
    omega
  refine ⟨st.2.1, ?_, ?_, ?_, fun b hb => ?_⟩
  rotate_right
  · rcases st.2.2.2.2 b hb with ⟨h1, h2⟩ | h1
    · obtain ⟨m, r', hr, hm⟩ := I.noLeak b h1
      have hmn : m ≠ n := fun h => h2 (hDn r' (h ▸ hr) b (h ▸ hm))
      exact ⟨m, r', by simp [Sys.put, hmn, hr], by simpa [hmn] using hm⟩
    · exact ⟨n, r, by simp [Sys.put], by simpa using h1⟩
  · intro m r' hr
    by_cases hm : m = n
    · subst hm
      simp only [Sys.put, if_true, Option.some.injEq] at hr
      subst hr
      exact ⟨v, by simp [Store.put], by simpa [Sys.put] using hv⟩
    · simp only [Sys.put, hm, if_false] at hr
      simpa [Store.put, Sys.put, hm] using old m r' hm hr
  · intro m hr
    by_cases hm : m = n
    · simp [Sys.put, hm] at hr
    · simp only [Sys.put, hm, if_false] at hr
      simpa [Store.put, hm] using I.absent m hr
  · intro m k r1 r2 hmk h1 h2 b hb
    by_cases hm : m = n
    · subst hm
      have hk : ¬ k = m := fun h => hmk h.symm
      simp only [Sys.put, if_true, Option.some.injEq] at h1
      simp only [Sys.put, hk, if_false] at h2
      subst h1
      simp only [if_true] at hb
      simp only [hk, if_false]
      exact fun hb' => new k r2 hk h2 b hb' hb
    · simp only [Sys.put, hm, if_false] at h1
      simp only [hm, if_false] at hb
      by_cases hk : k = n
      · subst hk
        simp only [Sys.put, if_true, Option.some.injEq] at h2
        subst h2
        simp only [if_true]
        exact new m r1 hm h1 b hb
      · simp only [Sys.put, hk, if_false] at h2
        simp only [hk, if_false]
        exact I.apart m k r1 r2 hmk h1 h2 b hb

theorem Owned.drop {S : Sys} {A : Store} {sh : Nat → Bool} (I : Owned S A sh) {n : Nat} {h' : Heap} {D : List Nat}
    (hD : ∀ m r', m ≠ n → S.objs m = some r' → ∀ b ∈ blocksOf (sh m) r', b ∉ D) 
    (hDn : ∀ r', S.objs n = some r' → ∀ b ∈ blocksOf (sh n) r', b ∈ D) (st : Step S.heap h' D []) :
    Owned (S.put h' n none) (A.put n none) (fun k => if k = n then false else sh k) := by
  refine ⟨st.2.1, ?_, ?_, ?_, fun b hb => ?_⟩
  rotate_right
  · rcases st.2.2.2.2 b hb with ⟨h1, h2⟩ | h1
    · obtain ⟨m, r', hr, hm⟩ := I.noLeak b h1
      have hmn : m ≠ n := fun h => h2 (hDn r' (h ▸ hr) b (h ▸ hm))
      exact ⟨m, r', by simp [Sys.put, hmn, hr], by simpa [hmn] using hm⟩
    · exact absurd h1 (by simp)
  · intro m r' hr
    by_cases hm : m = n
    · simp [Sys.put, hm] at hr
    · simp only [Sys.put, hm, if_false] at hr
      obtain ⟨w, hw, H⟩ := I.present m r' hr
      have H' := H.frame fun b hb => st.2.2.1 b (H.lt I.fresh b hb) (hD m r' hm hr b hb)
      exact ⟨w, by simp [Store.put, hm, hw], by simpa [hm, Sys.put] using H'⟩
  · intro m hr
    by_cases hm : m = n
    · simp [Store.put, hm]
    · simp only [Sys.put, hm, if_false] at hr
      simpa [Store.put, hm] using I.absent m hr
  · intro m k r1 r2 hmk h1 h2 b hb
    by_cases hm : m = n
    · simp [Sys.put, hm] at h1
    · by_cases hk : k = n
      · simp [Sys.put, hk] at h2
      · simp only [Sys.put, hm, hk, if_false] at h1 h2
        simp only [hm, hk, if_false] at hb ⊢
        exact I.apart m k r1 r2 hmk h1 h2 b hb

theorem same_flags {sh : Nat → Bool} {n : Nat} (h : sh n = false) : (fun k => if k = n then false else sh k) = sh := by
  funext k
  by_cases hk : k = n
  · simp [hk, h]
  · simp [hk]

theorem empty_holds (h : Heap) : HoldsR h .empty ([], []) :=
  ⟨List.Forall₂.nil, List.Forall₂.nil, by simp [ownsR, owns, Res.empty], rfl, rfl, rfl, rfl⟩

/-- What `res = img_multi_msers()` leaves of a result whose regions own their points. -/
theorem clear_step {h : Heap} {d : Res} {w : List Val × List Val} {room0 room1 : Bool} (hf : Fresh h) (hd : HoldsR h d w) :
    ∃ h', assignRes h room0 room1 d .empty = some (h', .empty) ∧ Step h h' (ownsR d) [] := by
  obtain ⟨h', r, e, hr, st⟩ := assignRes_step (room0 := room0) (room1 := room1) hf hd (empty_holds h)
    (by simp [ownsR, owns, Res.empty])
  obtain ⟨r0, r1, m0, m1, n0, n1⟩ := r
  obtain ⟨a, b, -, c, d, e', f⟩ := hr
  dsimp only at a b c d e' f
  cases a
  cases b
  subst c d e' f
  exact ⟨h', e, by simpa [ownsR, owns] using st⟩

theorem run_ok {S : Sys} {A : Store} {sh : Nat → Bool} (I : Owned S A sh) {o : Op} (hc : Careful sh o) :
    ∃ S', o.run S = some S' ∧ Owned S' (meaning A o) (shares A sh o) := by
  have apart : ∀ {n : Nat} {r : Res}, S.objs n = some r → ∀ m r', m ≠ n → S.objs m = some r' →
      ∀ b ∈ blocksOf (sh m) r', b ∉ blocksOf (sh n) r := fun hr m r' hm hr' => I.apart m _ r' _ hm hr' hr
  have covers : ∀ {n : Nat} {r : Res}, S.objs n = some r → ∀ r', S.objs n = some r' →
      ∀ b ∈ blocksOf (sh n) r', b ∈ blocksOf (sh n) r := by
    intro n r hr r' hr' b hb
    rw [hr] at hr'
    obtain rfl : r = r' := by simpa using hr'
    exact hb
  cases o with
  | create n =>
    cases hn : S.objs n with
    | some r =>
      obtain ⟨v, hv, -⟩ := I.present n r hn
      exact ⟨S, by simp [Op.run, hn], by simpa [meaning, hv, shares] using I⟩
    | none =>
      have h0 := I.absent n hn
      refine ⟨S.put S.heap n (some .empty), by simp [Op.run, hn], ?_⟩
      have := I.put (n := n) (h' := S.heap) (D := []) (r := .empty) (v := ([], [])) (s := false) (by simp)
        (by simp [hn])
        ⟨Nat.le_refl _, I.fresh, fun _ _ _ => rfl, by simp [blocksOf, ownsR, owns, Res.empty],
          by simpa [blocksOf, ownsR, owns, Res.empty] using Exact.refl _⟩ (empty_holds _)
      rw [same_flags h0.2] at this
      simpa [meaning, h0.1, shares] using this
  | extractOwn n room0 room1 vs0 vs1 =>
    cases hn : S.objs n with
    | none =>
      have h0 := I.absent n hn
      exact ⟨S, by simp [Op.run, hn], by simpa [meaning, h0.1, shares] using I⟩
    | some d =>
      obtain ⟨w, hw, hd⟩ := I.present n d hn
      have hc : sh n = false := hc
      rw [hc] at hd
      obtain ⟨h1, e1, s1⟩ := clear_step (room0 := room0) (room1 := room1) I.fresh hd
      have m0 := makeOwn_step (vs := vs0) s1.2.1
      have m1 := makeOwn_step (vs := vs1) m0.2.2.1
      have m2 := pair_step m0.1 m0.2 m1.1 m1.2 (by simp)
      refine ⟨_, by simp only [Op.run, hn, e1, Option.bind_some]; rfl, ?_⟩
      have := I.put (n := n) (s := false) (v := (vs0, vs1)) (apart hn) (covers hn) (by rw [hc]; exact s1.seq m2.2) m2.1
      rw [same_flags hc] at this
      simpa [meaning, hw, shares, Res.empty] using this
  | extractShared n room0 room1 vs0 vs1 =>
    cases hn : S.objs n with
    | none =>
      have h0 := I.absent n hn
      exact ⟨S, by simp [Op.run, hn], by simpa [meaning, h0.1, shares] using I⟩
    | some d =>
      obtain ⟨w, hw, hd⟩ := I.present n d hn
      have hc : sh n = false := hc
      rw [hc] at hd
      obtain ⟨h1, e1, s1⟩ := clear_step (room0 := room0) (room1 := room1) I.fresh hd
      have m0 := makeShared_step s1.2.1 vs0
      have m1 := makeShared_step m0.2.2.1 vs1
      have m2 := pairS_step (n0 := (makeShared h1 vs0).2.2.2)
        (n1 := (makeShared (makeShared h1 vs0).1 vs1).2.2.2) m0.1 m0.2 m1.1 m1.2
      refine ⟨_, by simp only [Op.run, hn, e1, Option.bind_some]; rfl, ?_⟩
      have := I.put (n := n) (s := true) (v := (vs0, vs1)) (apart hn) (covers hn) (by rw [hc]; exact s1.seq m2.2) m2.1
      simpa [meaning, hw, shares] using this
  | copy n m =>
    have hc : sh m = false := hc
    cases hn : S.objs n with
    | some d =>
      obtain ⟨w, hw, hd⟩ := I.present n d hn
      exact ⟨S, by simp [Op.run, hn], by simpa [meaning, hw, shares] using I⟩
    | none =>
      have h0 := I.absent n hn
      cases hm : S.objs m with
      | none =>
        have h1 := I.absent m hm
        exact ⟨S, by simp [Op.run, hn, hm], by simpa [meaning, h1.1, shares] using I⟩
      | some s =>
        obtain ⟨v, hv, hs⟩ := I.present m s hm
        rw [hc] at hs
        obtain ⟨h', r, e, hr, st⟩ := copyRes_step I.fresh hs
        refine ⟨_, by simp only [Op.run, hn, hm, e, Option.bind_some]; rfl, ?_⟩
        have := I.put (n := n) (s := false) (v := v) (by simp) (by simp [hn]) st hr
        rw [same_flags h0.2] at this
        simpa [meaning, h0.1, hv, shares] using this
  | assign n m room0 room1 =>
    obtain ⟨hcn, hcm⟩ : sh n = false ∧ sh m = false := hc
    cases hn : S.objs n with
    | none =>
      have h0 := I.absent n hn
      exact ⟨S, by simp [Op.run, hn], by simpa [meaning, h0.1, shares] using I⟩
    | some d =>
      obtain ⟨w, hw, hd⟩ := I.present n d hn
      rw [hcn] at hd
      cases hm : S.objs m with
      | none =>
        have h1 := I.absent m hm
        exact ⟨S, by simp [Op.run, hn, hm], by simpa [meaning, h1.1, shares] using I⟩
      | some s =>
        obtain ⟨v, hv, hs⟩ := I.present m s hm
        rw [hcm] at hs
        by_cases hnm : n = m
        · subst hnm
          have : assignSelf S.heap d = some (S.heap, d) := by
            obtain ⟨d0, d1, x0, x1, y0, y1⟩ := d
            obtain ⟨-, -, -, a, b, c, e⟩ := hd
            dsimp only at a b c e
            subst a b c e
            simp [assignSelf, Heap.release]
          refine ⟨S, ?_, ?_⟩
          · simp only [Op.run, hn, if_true, this, Option.bind_some, Sys.put, Option.some.injEq]
            obtain ⟨sh, so⟩ := S
            simp only [Sys.mk.injEq, true_and]
            funext k
            by_cases hk : k = n
            · subst hk
              simpa using hn.symm
            · simp [hk]
          · have : A.put n (some w) = A := by
              funext k
              by_cases hk : k = n
              · simp [Store.put, hk, hw]
              · simp [Store.put, hk]
            simpa [meaning, hw, this, shares] using I
        · obtain ⟨h', r, e, hr, st⟩ := assignRes_step (room0 := room0) (room1 := room1) I.fresh hd hs
            (by have := I.apart m n s d (Ne.symm hnm) hm hn; rw [hcn, hcm] at this; exact this)
          refine ⟨_, by simp only [Op.run, hn, hm, hnm, if_false, e, Option.bind_some]; rfl, ?_⟩
          have := I.put (n := n) (s := false) (v := v) (apart hn) (covers hn) (by rw [hcn]; exact st) hr
          rw [same_flags hcn] at this
          simpa [meaning, hw, hv, shares] using this
  | destroy n =>
    cases hn : S.objs n with
    | none =>
      have h0 := I.absent n hn
      refine ⟨S, by simp [Op.run, hn], ?_⟩
      have : A.put n none = A := by
        funext k
        by_cases hk : k = n
        · simp [Store.put, hk, h0.1]
        · simp [Store.put, hk]
      simp only [meaning, this, shares, same_flags h0.2]
      exact I
    | some r =>
      obtain ⟨w, hw, hd⟩ := I.present n r hn
      have : ∃ h', destroyRes S.heap r = some h' ∧ Step S.heap h' (blocksOf (sh n) r) [] := by
        cases hs : sh n with
        | true =>
          rw [hs] at hd
          exact HoldsS.destroy I.fresh hd
        | false =>
          rw [hs] at hd
          exact destroyRes_step I.fresh hd
      obtain ⟨h', e, st⟩ := this
      exact ⟨_, by simp only [Op.run, hn, e, Option.bind_some], I.drop (apart hn) (covers hn) st⟩

theorem runs_ok : ∀ {os : List Op} {S : Sys} {A : Store} {sh : Nat → Bool}, Owned S A sh → CarefulAll A sh os →
    ∃ S' sh', runs S os = some S' ∧ Owned S' (meanings A os) sh'
  | [], S, A, sh, I, _ => ⟨S, sh, rfl, I⟩
  | o :: os, S, A, sh, I, hc => by
    obtain ⟨S1, e1, I1⟩ := run_ok I hc.1
    obtain ⟨S2, sh2, e2, I2⟩ := runs_ok I1 hc.2
    exact ⟨S2, sh2, by simp [runs, e1, e2], I2⟩

theorem init_inv : Owned .init (fun _ => none) (fun _ => false) :=
  ⟨fun _ _ => rfl, fun n r h => absurd h (by simp [Sys.init]), fun _ _ => ⟨rfl, rfl⟩,
    fun n m r r' _ h => absurd h (by simp [Sys.init]), fun b h => absurd rfl h⟩

/-- C38, the part that holds: whatever is created, extracted, copied, assigned (also to itself) and destroyed, in any order and
with any capacities of the vectors, as long as results with common memory are only read and destroyed, nothing undefined
happens and every object shows its value. In particular copies of results whose regions own their points survive the original. -/
theorem C38_careful_partial {ops : List Op} (h : CarefulAll (fun _ => none) (fun _ => false) ops) : CopiesValid ops := by
  obtain ⟨S, sh, e, I⟩ := runs_ok init_inv h
  refine ⟨S, e, fun n => ?_⟩
  cases hn : S.objs n with
  | none => simp [(I.absent n hn).1]
  | some r =>
    obtain ⟨v, hv, H⟩ := I.present n r hn
    simp [hv, H.read]

/-- C60 for a history: when all objects are destroyed, no memory is left. -/
def NothingLeft (ops : List Op) : Prop :=
  ∃ S, runs .init ops = some S ∧ ((∀ n, S.objs n = none) → ∀ b, S.heap.blocks b = none)

/-- C60, the part that holds: the histories of C38. -/
theorem C60_careful_partial {ops : List Op} (h : CarefulAll (fun _ => none) (fun _ => false) ops) : NothingLeft ops := by
  obtain ⟨S, sh, e, I⟩ := runs_ok init_inv h
  refine ⟨S, e, fun hn b => ?_⟩
  by_contra hb
  obtain ⟨n, r, hr, -⟩ := I.noLeak b hb
  rw [hn n] at hr
  exact absurd hr (by simp)

/-- C60 is violated for copies of results with common memory: destroying them is undefined. -/
theorem C60_false (t : Nat) (p : Pt) (ps : List Pt) :
    ¬ NothingLeft [.create 0, .extractShared 0 false false [(t, p :: ps)] [], .copy 1 0, .destroy 1, .destroy 0] := by
  rintro ⟨S, e, -⟩
  simp [runs, Op.run, Sys.put, Sys.init, assignRes, assignRegs, copyRegs, destroyRegs, Res.empty, Heap.release, copyMem,
    makeShared, inBlock, copyRes, copyReg, assignReg, Heap.read, Heap.alloc, Heap.set, destroyRes] at e

/-- C60 is violated for single regions: assigning a region in common memory to one that owns its points loses them
without releasing them, and the destructor will not release them either. -/
theorem C60_region_false {h : Heap} {d s : Reg} {b : Nat} {x : List Pt} (hd : d.self = true) (hp : d.points = some (b, 0))
    (hb : h.blocks b = some (.new, x)) (hs : s.self = false) :
    ∃ h' r, assignReg h d s = some (h', r) ∧ destroyReg h' r = some h' ∧ h'.blocks b ≠ none ∧
      ∃ h'', destroyReg h d = some h'' ∧ h''.blocks b = none :=
  ⟨h, s, by simp [assignReg, hs], by simp [destroyReg, hs], by simp [hb], h.set b none,
    by simp [destroyReg, hd, hp, Heap.release, hb], by simp [Heap.set]⟩

/-- C38 is violated: after the original with common memory is destroyed, its copy cannot be read any more, whatever the
region. -/
theorem C38_false (t : Nat) (p : Pt) (ps : List Pt) :
    ¬ CopiesValid [.create 0, .extractShared 0 false false [(t, p :: ps)] [], .copy 1 0, .destroy 0] := by
  rintro ⟨S, e, h⟩
  have h1 := h 1
  simp [runs, Op.run, Sys.put, Sys.init, assignRes, assignRegs, copyRegs, destroyRegs, Res.empty, Heap.release, copyMem,
    makeShared, inBlock, copyRes, copyReg, assignReg, Heap.read, Heap.alloc, Heap.set, destroyRes, destroyReg] at e
  subst e
  simp [readRes, readReg, Heap.read, meanings, meaning, Store.put, List.mapM_cons] at h1

/-- C38 is violated: destroying a copy of a result with common memory is undefined (`free` of memory from `new[]`). -/
theorem C38_destroy_false (t : Nat) (p : Pt) (ps : List Pt) :
    runs .init [.create 0, .extractShared 0 false false [(t, p :: ps)] [], .copy 1 0, .destroy 1] = none := by
  simp [runs, Op.run, Sys.put, Sys.init, assignRes, assignRegs, copyRegs, destroyRegs, Res.empty, Heap.release, copyMem,
    makeShared, inBlock, copyRes, copyReg, assignReg, Heap.read, Heap.alloc, Heap.set, destroyRes]

/-- A block from `malloc` stays. -/
def Kept (c : Nat) (x : List Pt) (h : Heap) : Prop := h.blocks c = some (.malloc, x) ∧ c < h.next

theorem Kept.alloc {c : Nat} {x d : List Pt} {h : Heap} {k : Kind} (H : Kept c x h) : Kept c x (h.alloc k d) := by
  have : ¬ c = h.next := by have := H.2; omega
  exact ⟨by simp [Heap.alloc, Heap.set, this, H.1], Nat.lt_succ_of_lt H.2⟩

theorem Kept.release {c : Nat} {x : List Pt} {h h' : Heap} {p : Option (Nat × Nat)} (H : Kept c x h)
    (e : h.release .new p = some h') : Kept c x h' := by
  cases p with
  | none =>
    simp only [Heap.release, Option.some.injEq] at e
    exact e ▸ H
  | some p =>
    obtain ⟨b, o⟩ := p
    simp only [Heap.release] at e
    split at e
    · rename_i k y hb
      split at e
      · rename_i hk
        simp only [Option.some.injEq] at e
        subst e
        have : ¬ c = b := by
          intro hc
          subst hc
          rw [H.1] at hb
          simp only [Option.some.injEq, Prod.mk.injEq] at hb
          exact absurd (hb.1.trans hk.1) (by decide)
        exact ⟨by simp [Heap.set, this, H.1], H.2⟩
      · exact absurd e (by simp)
    · exact absurd e (by simp)

theorem Kept.assignReg {c : Nat} {x : List Pt} {h : Heap} {d s : Reg} {a : Heap × Reg} (H : Kept c x h)
    (e : assignReg h d s = some a) : Kept c x a.1 := by
  unfold Ownership.assignReg at e
  split at e
  · rw [Option.bind_eq_some_iff] at e
    obtain ⟨h1, e1, e⟩ := e
    have H1 := H.release e1
    split at e
    · rw [Option.bind_eq_some_iff] at e
      obtain ⟨l, -, e⟩ := e
      simp only [Option.some.injEq] at e
      subst e
      exact H1.alloc
    · simp only [Option.some.injEq] at e
      subst e
      exact H1
  · simp only [Option.some.injEq] at e
    subst e
    exact H

theorem Kept.copyRegs {c : Nat} {x : List Pt} : ∀ {ss : List Reg} {h : Heap} {a : Heap × List Reg}, Kept c x h →
    copyRegs h ss = some a → Kept c x a.1
  | [], _, _, H, e => by
    simp only [Ownership.copyRegs, Option.some.injEq] at e
    subst e
    exact H
  | s :: ss, h, a, H, e => by
    simp only [Ownership.copyRegs, Option.bind_eq_some_iff] at e
    obtain ⟨b, e1, b', e2, e⟩ := e
    simp only [Option.some.injEq] at e
    subst e
    exact Kept.copyRegs (a := b') (H.assignReg e1) e2

theorem Kept.destroyRegs {c : Nat} {x : List Pt} : ∀ {ss : List Reg} {h h' : Heap}, Kept c x h →
    destroyRegs h ss = some h' → Kept c x h'
  | [], _, _, H, e => by
    simp only [Ownership.destroyRegs, Option.some.injEq] at e
    exact e ▸ H
  | s :: ss, h, a, H, e => by
    simp only [Ownership.destroyRegs, Option.bind_eq_some_iff] at e
    obtain ⟨b, e1, e2⟩ := e
    refine Kept.destroyRegs ?_ e2
    unfold destroyReg at e1
    split at e1
    · exact H.release e1
    · simp only [Option.some.injEq] at e1
      exact e1 ▸ H

theorem Kept.assignEach {c : Nat} {x : List Pt} : ∀ {ds ss : List Reg} {h : Heap} {a : Heap × List Reg}, Kept c x h →
    assignEach h ds ss = some a → Kept c x a.1
  | [], _, _, _, H, e => by
    simp only [Ownership.assignEach] at e
    exact H.copyRegs e
  | d :: ds, [], _, _, H, e => by
    simp only [Ownership.assignEach, Option.bind_eq_some_iff] at e
    obtain ⟨b, e1, e⟩ := e
    simp only [Option.some.injEq] at e
    subst e
    exact H.destroyRegs e1
  | d :: ds, s :: ss, h, a, H, e => by
    simp only [Ownership.assignEach, Option.bind_eq_some_iff] at e
    obtain ⟨b, e1, b', e2, e⟩ := e
    simp only [Option.some.injEq] at e
    subst e
    exact Kept.assignEach (a := b') (H.assignReg e1) e2

theorem Kept.assignRegs {c : Nat} {x : List Pt} {ds ss : List Reg} {h : Heap} {room : Bool} {a : Heap × List Reg}
    (H : Kept c x h) (e : assignRegs h room ds ss = some a) : Kept c x a.1 := by
  unfold Ownership.assignRegs at e
  split at e
  · exact H.assignEach e
  · simp only [Option.bind_eq_some_iff] at e
    obtain ⟨b, e1, b', e2, e⟩ := e
    simp only [Option.some.injEq] at e
    subst e
    exact (H.copyRegs e1).destroyRegs e2

/-- C38 is violated: assigning anything to a result with common memory is undefined (`delete[]` of memory from `malloc`). -/
theorem C38_assign_false {h : Heap} {room0 room1 : Bool} {d s : Res} {v : List Val × List Val} (hf : Fresh h)
    (hd : HoldsS h d v) (h0 : d.mem0 ≠ none) : assignRes h room0 room1 d s = none := by
  have hlt := hd.1.lt hf
  obtain ⟨⟨b0, e0, r0, -, hb0⟩, -⟩ := hd
  cases b0 with
  | none => exact absurd e0 h0
  | some c =>
    have H : Kept c _ h := ⟨hb0 c rfl, hlt c (by simp [e0, memOf])⟩
    unfold assignRes
    rw [Option.bind_eq_none_iff]
    intro a ea
    rw [Option.bind_eq_none_iff]
    intro b eb
    have := ((H.assignRegs ea).assignRegs eb).1
    simp [e0, Heap.release, this]

/-- C59: a result object can be used for extraction after extraction; each time it shows the new regions only. -/
def Reusable (shared : Bool) : Prop :=
  ∀ (room : List (Bool × Bool)) (vs : List (List Val × List Val)), room.length = vs.length →
    CopiesValid (Op.create 0 :: List.zipWith (fun r v =>
      if shared then .extractShared 0 r.1 r.2 v.1 v.2 else .extractOwn 0 r.1 r.2 v.1 v.2) room vs)

/-- C59 holds for the algorithms whose regions own their points. -/
theorem C59_own_partial : Reusable false := by
  intro room vs _
  refine C38_careful_partial ⟨trivial, ?_⟩
  simp only [shares, Bool.false_eq_true, if_false]
  generalize meaning (fun _ => none) (Op.create 0) = A
  induction room generalizing vs A with
  | nil => simp [CarefulAll]
  | cons r room ih =>
    cases vs with
    | nil => simp [CarefulAll]
    | cons v vs =>
      simp only [List.zipWith_cons_cons, CarefulAll, Careful, shares, true_and]
      exact ih vs (by simp_all) _

/-- C59 is violated by the algorithms with common memory: the second extraction is undefined as soon as the first found
a region. -/
theorem C59_false (t : Nat) (p : Pt) (ps : List Pt) (room0 room1 : Bool) (vs0 vs1 : List Val) :
    runs .init [.create 0, .extractShared 0 room0 room1 [(t, p :: ps)] [], .extractShared 0 room0 room1 vs0 vs1] = none := by
  cases room0 <;> cases room1 <;>
  simp [runs, Op.run, Sys.put, Sys.init, assignRes, assignRegs, assignEach, copyRegs, destroyRegs, destroyReg, Res.empty,
    Heap.release, copyMem, makeShared, inBlock, Heap.alloc, Heap.set]

/-- The code violates C59. -/
theorem C59_shared_false : ¬ Reusable true := by
  intro h
  obtain ⟨S, e, -⟩ := h [(false, false), (false, false)] [([(0, [(0, 0)])], []), ([], [])] rfl
  have := C59_false 0 (0, 0) [] false false [] []
  simp only [List.zipWith_cons_cons, List.zipWith_nil_left, if_true] at e
  rw [this] at e
  exact absurd e (by simp)

/-- Copies that outlive the original, an assignment to a larger and a smaller vector, one to itself, and a result with
common memory that is only read. -/
example : CopiesValid [.create 0, .extractOwn 0 true false [(3, [(0, 0), (1, 0)]), (5, [])] [(9, [(2, 2)])], .copy 1 0,
    .destroy 0, .create 2, .assign 2 1 false true, .assign 1 1 true true, .extractOwn 1 true true [] [(4, [(7, 7)])],
    .assign 2 1 true true, .destroy 1, .create 3, .extractShared 3 true true [(1, [(0, 0)]), (2, [(0, 0), (1, 1)])] []] :=
  C38_careful_partial (by simp [CarefulAll, Careful, shares])

example : NothingLeft [.create 0, .extractOwn 0 true false [(3, [(0, 0), (1, 0)]), (5, [])] [(9, [(2, 2)])], .copy 1 0,
    .destroy 0, .create 2, .assign 2 1 false true, .destroy 1, .extractShared 2 true true [(1, [(0, 0)])] [], .destroy 2] :=
  C60_careful_partial (by simp [CarefulAll, Careful, shares])

end Verif.Props
