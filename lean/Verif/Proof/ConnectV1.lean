import Verif.Proof.AppendV1
import Verif.Proof.ConnectTree

/-!
# Fast MSER V1: the loop of `connect`
-/

namespace Verif.V1

open Function (update)
open Relation (ReflTransGen)
open Verif.Spec (Linked LConn)
open Verif.Connect (Forest chase Up UpO RealPar Str up_total up_away up_through up_to Ctx LInv CSt ConnOk SizeOk edge pend
  setParent addSize Compressed val upO_some chase_res lconn_of_edges edge_congr)

variable {ι : Type} [DecidableEq ι] {α : Type}

/-! ### What does not matter -/

section
variable {D : Nat → Prop} {own : Nat → ι} {isReg : ι → Prop} {gr : ι → Nat} {F F1 : Forest ι} {M M1 : Mem ι}
  {L : ι → List Nat} {Xs : List ι} {ds : List (Option ι × Int)} {hot : ι → Prop} {m : Nat}

/-- Memory with the same lists. -/
structure SameLists (M M1 : Mem ι) : Prop where
  head : ∀ q, (M1.regs q).head = (M.regs q).head
  tail : ∀ q, (M1.regs q).tail = (M.regs q).tail
  size : ∀ q, (M1.regs q).size = (M.regs q).size
  unmerged : ∀ q, (M1.regs q).unmerged = (M.regs q).unmerged
  rect : ∀ q, (M1.regs q).rect = (M.regs q).rect
  pts : M1.pts = M.pts
  mp : M1.mp = M.mp

omit [DecidableEq ι] in
theorem LS.congr (h : LS D own isReg F M L Xs ds hot) (hm : ∀ q, (F1 q).merged = (F q).merged)
    (hu : ∀ a r, (F r).merged = false → (Up F1 a r ↔ Up F a r)) (hM : SameLists M M1) :
    LS D own isReg F1 M1 L Xs ds hot := by
  have hxs : ∀ X ∈ Xs, ∀ a, (Up F1 a X ↔ Up F a X) := fun X hX a => hu a X (h.xs X hX).2
  have hinn : ∀ q, Inn F1 Xs q ↔ Inn F Xs q := by
    intro q; unfold Inn
    constructor
    · rintro ⟨X, hX, k⟩; exact ⟨X, hX, (hxs X hX q).1 k⟩
    · rintro ⟨X, hX, k⟩; exact ⟨X, hX, (hxs X hX q).2 k⟩
  have hupo : ∀ q, (F q).merged = false → ∀ o, UpO F1 o q ↔ UpO F o q := by
    intro q hq o; unfold UpO
    constructor
    · rintro ⟨x, hx, k⟩; exact ⟨x, hx, (hu x q hq).1 k⟩
    · rintro ⟨x, hx, k⟩; exact ⟨x, hx, (hu x q hq).2 k⟩
  refine
    { xs := ?_, mem := ?_, nodup := ?_, linked := ?_, head := ?_, low := ?_, sub := ?_, inv := ?_, ends := ?_, top := ?_,
      tailIn := ?_, sizeIn := ?_, rectIn := ?_, tailOut := ?_, quiet := ?_, sizeOut := ?_, rectOut := ?_, refs := ?_ }
  · intro X hX; rw [hm]; exact h.xs X hX
  · intro q hq hl p
    rw [hm] at hl
    rw [h.mem q hq hl p, hu _ q hl]
    constructor
    · rintro ⟨h1, h2, h3⟩
      exact ⟨h1, h2, fun X hX k => (hxs X hX q).2 (h3 X hX ((hxs X hX _).1 k))⟩
    · rintro ⟨h1, h2, h3⟩
      exact ⟨h1, h2, fun X hX k => (hxs X hX q).1 (h3 X hX ((hxs X hX _).2 k))⟩
  · intro q hq hl; rw [hm] at hl; exact h.nodup q hq hl
  · intro q hq hl; rw [hm] at hl; rw [hM.pts]; exact h.linked q hq hl
  · intro q hq hl; rw [hm] at hl; rw [hM.head]; exact h.head q hq hl
  · intro q hq hl q' hq' hl' k
    rw [hm] at hl hl'
    rw [hM.head, hu _ q' hl'] at k
    rw [hu _ q' hl']; exact h.low q hq hl q' hq' hl' k
  · intro q hq hl q' hq' hl' k h3
    rw [hm] at hl hl'
    rw [hu _ q' hl'] at k
    exact h.sub q hq hl q' hq' hl' k (fun X hX k' => (hxs X hX q').1 (h3 X hX ((hxs X hX q).2 k')))
  · rw [hM.pts]; exact h.inv
  · intro X hX; rw [hM.pts, hM.head]; exact h.ends X hX
  · intro q hq hl hi hroot
    rw [hm] at hl; rw [hinn] at hi
    rw [hM.pts, hM.head]
    refine h.top q hq hl hi ?_
    intro q' hq' hl' k
    exact hroot q' hq' (by rw [hm]; exact hl') ((hu q q' hl').2 k)
  · intro q hq hl hi; rw [hm] at hl; rw [hinn] at hi; rw [hM.tail]; exact h.tailIn q hq hl hi
  · intro q hq hl hi hh; rw [hm] at hl; rw [hinn] at hi; rw [hM.size, hM.unmerged]; exact h.sizeIn q hq hl hi hh
  · intro q hq hl hi hh; rw [hm] at hl; rw [hinn] at hi; rw [hM.rect, hM.pts]; exact h.rectIn q hq hl hi hh
  · intro q hq hl hi; rw [hm] at hl; rw [hinn] at hi; rw [hM.pts, hM.tail, hM.mp]; exact h.tailOut q hq hl hi
  · intro q hq hl hi hz; rw [hm] at hl; rw [hinn] at hi; rw [hM.tail]
    exact h.quiet q hq hl hi (fun e he k => hz e he ((hupo q hl _).2 k))
  · intro q hq hl hi; rw [hm] at hl; rw [hinn] at hi; rw [hM.size, hM.unmerged]
    obtain ⟨s1, s2⟩ := h.sizeOut q hq hl hi
    refine ⟨?_, s2⟩
    rw [s1]; congr 1
    exact due_congr (fun e _ => (hupo q hl e.1).symm)
  · intro q hq hl hi; rw [hm] at hl; rw [hinn] at hi; rw [hM.rect, hM.pts]
    refine (h.rectOut q hq hl hi).mono (fun a => ⟨rfl, rfl⟩) (fun a ha => ha) ?_
    rintro a (ha | ⟨⟨e, he, k⟩, hX⟩)
    · exact .inl ha
    · exact .inr ⟨⟨e, he, (hupo q hl _).2 k⟩, hX⟩
  · intro p hp k; rw [hM.pts] at k; rw [hM.mp]; exact h.refs p hp k

omit [DecidableEq ι] in
/-- Only grays, parents and flags matter when sizes are not followed. -/
theorem retag {C : Ctx ι α} (hC : ¬ C.track) {sm bg : Option ι} {pix pix' : Nat} (h : LInv C ⟨F, sm, bg, pix, m⟩)
    (hg : ∀ r, (F1 r).gray = (F r).gray) (hm : ∀ r, (F1 r).merged = (F r).merged)
    (hp : ∀ r, (F1 r).parent = (F r).parent)
    (ho : pix' = 0 ∨ ∀ s b, sm = some s → bg = some b → C.gr s ≤ C.gr b) : LInv C ⟨F1, sm, bg, pix', m⟩ := by
  obtain ⟨hstr, ⟨s', hs', hsr, hsl⟩, hb, hord, hconn, hsize⟩ := h
  dsimp only at hs' hstr hsl hb hord hconn hsize
  refine ⟨hstr.congr hg hm hp, ⟨s', hs', hsr, by dsimp only; rw [hm]; exact hsl⟩, ?_, ho, ?_, fun ht => absurd ht hC⟩
  · intro b h1; dsimp only; rw [hm]; exact hb b h1
  · intro l p hp' q hq hpl hql
    dsimp only
    rw [edge_congr hp]
    exact hconn l p hp' q hq hpl hql
end

/-! ### Resetting the references -/

theorem resetRefs_pts (l : List Nat) (pts : Nat → Point) (a : Nat) :
    let pts' := l.foldr (fun a pts => update pts a { pts a with ref := none }) pts
    (pts' a).ref = (if a ∈ l then none else (pts a).ref) ∧ (pts' a).next = (pts a).next ∧ (pts' a).prev = (pts a).prev ∧
      (pts' a).x = (pts a).x ∧ (pts' a).y = (pts a).y := by
  induction l with
  | nil => simp
  | cons c l ih =>
    dsimp only at ih ⊢
    rw [List.foldr_cons]
    by_cases e : a = c
    · subst e; simp only [Function.update_self]; simp only [List.mem_cons, true_or, if_true, true_and]
      exact ⟨ih.2.1, ih.2.2.1, ih.2.2.2.1, ih.2.2.2.2⟩
    · rw [Function.update_of_ne e]
      simp only [List.mem_cons, e, false_or]
      exact ih

section
variable {D : Nat → Prop} {own : Nat → ι} {isReg : ι → Prop} {gr : ι → Nat} {F : Forest ι} {M : Mem ι}
  {L : ι → List Nat} {Xs : List ι} {ds : List (Option ι × Int)} {m : Nat}

omit [DecidableEq ι] in
/-- When the regions cut off are roots and nothing is due, all lists are complete. -/
theorem LS.finish (h : LS D own isReg F M L Xs ds (fun _ => False))
    (hX : ∀ X ∈ Xs, ∀ q, isReg q → (F q).merged = false → Up F X q → q = X) (hds : ∀ e ∈ ds, e.1 = none) :
    LS D own isReg F (resetRefs M) L [] [] (fun _ => False) := by
  have hz : ∀ q, ∀ e ∈ ds, ¬ UpO F e.1 q := by
    rintro q e he ⟨x, hx, _⟩; rw [hds e he] at hx; simp at hx
  have hpts := resetRefs_pts M.mp M.pts
  have hn : nx (resetRefs M).pts = nx M.pts := funext fun a => (hpts a).2.1
  have hp : pv (resetRefs M).pts = pv M.pts := funext fun a => (hpts a).2.2.1
  have hxy : ∀ a, ((resetRefs M).pts a).x = (M.pts a).x ∧ ((resetRefs M).pts a).y = (M.pts a).y := fun a => (hpts a).2.2.2
  have hrf : ∀ a, D a → rf (resetRefs M).pts a = none := by
    intro a ha
    have e : rf (resetRefs M).pts a = if a ∈ M.mp then none else rf M.pts a := (hpts a).1
    rw [e]
    by_cases k : a ∈ M.mp
    · rw [if_pos k]
    · rw [if_neg k]
      by_contra hne
      exact k (h.refs a ha hne).1
  have hr : ∀ q, (resetRefs M).regs q = M.regs q := fun q => rfl
  have habove : ∀ q, isReg q → (F q).merged = false → ∀ {a : ι}, Up F a q → ∀ X ∈ Xs, Up F a X → Up F q X := by
    intro q hq hl a h1 X hX' h2
    rcases up_total h1 h2 with k | k
    · exact k
    · rw [hX X hX' q hq hl k]; exact .refl
  have hlast : ∀ q, isReg q → (F q).merged = false → (L q).getLast? = some (M.regs q).tail := by
    intro q hq hl
    by_cases hi : Inn F Xs q
    · exact h.tailIn q hq hl hi
    · exact h.quiet q hq hl hi (hz q)
  have htight : ∀ q, isReg q → (F q).merged = false → Tight M.pts (L q) (M.regs q).rect := by
    intro q hq hl
    by_cases hi : Inn F Xs q
    · exact h.rectIn q hq hl hi not_false
    · refine (h.rectOut q hq hl hi).tight ?_
      rintro a ⟨⟨e, he, k⟩, _⟩; exact hz q e he k
  refine
    { xs := ?_, mem := ?_, nodup := ?_, linked := ?_, head := ?_, low := ?_, sub := ?_, inv := ?_, ends := ?_, top := ?_,
      tailIn := ?_, sizeIn := ?_, rectIn := ?_, tailOut := ?_, quiet := ?_, sizeOut := ?_, rectOut := ?_, refs := ?_ }
  · intro X hX; simp at hX
  · intro q hq hl p
    rw [h.mem q hq hl p]
    constructor
    · rintro ⟨h1, h2, _⟩; exact ⟨h1, h2, fun X hX => by simp at hX⟩
    · rintro ⟨h1, h2, _⟩; exact ⟨h1, h2, habove q hq hl h2⟩
  · exact h.nodup
  · rw [hn, hp]; exact h.linked
  · exact h.head
  · exact h.low
  · intro q hq hl q' hq' hl' hu _
    exact h.sub q hq hl q' hq' hl' hu (habove q' hq' hl' hu)
  · rw [hn, hp]; exact h.inv
  · intro X hX; simp at hX
  · intro q hq hl _ hroot
    rw [hp, hr]
    by_cases hi : Inn F Xs q
    · obtain ⟨X, hX', hu⟩ := hi
      have e := hroot X (h.xs X hX').1 (h.xs X hX').2 hu
      subst e
      exact (h.ends X hX').1
    · exact h.top q hq hl hi hroot
  · rintro q hq hl ⟨X, hX', _⟩; simp at hX'
  · rintro q hq hl ⟨X, hX', _⟩; simp at hX'
  · rintro q hq hl ⟨X, hX', _⟩; simp at hX'
  · intro q hq hl _
    have h1 := hlast q hq hl
    refine ⟨0, Nat.zero_le _, (M.regs q).tail, ⟨rfl, hrf _ ?_⟩, h1⟩
    exact ((h.mem q hq hl _).1 (List.mem_of_getLast? h1)).1
  · intro q hq hl _ _; exact hlast q hq hl
  · intro q hq hl _
    rw [hr, due_nil, due_nil]
    by_cases hi : Inn F Xs q
    · have := h.sizeIn q hq hl hi not_false; omega
    · obtain ⟨s1, s2⟩ := h.sizeOut q hq hl hi
      have z1 : due ds (fun o => UpO F o q) = 0 := due_zero (hz q)
      have z2 : due ds (fun o => o = some q) = 0 := due_zero (fun e he k => hz q e he ⟨q, k, .refl⟩)
      omega
  · intro q hq hl _
    exact ((htight q hq hl).congr (fun a _ => hxy a)).cover
  · intro p hp' hne; exact absurd (hrf p hp') hne
end

/-! ### The loop -/

section
variable {C : Ctx ι α} {D : Nat → Prop} {own : Nat → ι} {c : VSt ι} {fuel split : Nat}

/-- Until the first pair is linked. -/
structure Phase1 (C : Ctx ι α) (D : Nat → Prop) (own : Nat → ι) (c : VSt ι) (s b : ι) (L : ι → List Nat) : Prop where
  smaller : c.smaller = some s
  bigger : c.bigger = some b
  ne : s ≠ b
  changed : c.changed = false
  lb : ∀ k, c.lb k = none
  tree : LInv C ⟨c.M.forest, some s, some b, 0, c.M.merges⟩
  lists : LS D own C.isReg c.M.forest c.M L [] [] (fun _ => False)

/-- After that: `smaller` is cut off. -/
structure Phase2 (split : Nat) (C : Ctx ι α) (D : Nat → Prop) (own : Nat → ι) (c : VSt ι) (s : ι) (L : ι → List Nat)
    (ds : List (Option ι × Int)) : Prop where
  smaller : c.smaller = some s
  ne : c.bigger ≠ some s
  changed : c.changed = true
  lb : c.lb (slot split c.M s) = some s
  below : ∀ k y, c.lb k = some y → Up c.M.forest y s
  tree : LInv C ⟨c.M.forest, some s, c.bigger, 1, c.M.merges⟩
  lists : LS D own C.isReg c.M.forest c.M L [s] ds (fun _ => False)
  pos : ∀ e ∈ ds, e.1 = none ∨ RealPar c.M.forest s e.1 ∨ e.1 = c.bigger

/-- The end: nothing is left to join. -/
structure Phase3 (C : Ctx ι α) (D : Nat → Prop) (own : Nat → ι) (M : Mem ι) (Xs : List ι) (L : ι → List Nat)
    (ds : List (Option ι × Int)) : Prop where
  str : Str C.isReg C.gr M.forest M.merges
  conn : ConnOk C M.forest none none
  lists : LS D own C.isReg M.forest M L Xs ds (fun _ => False)
  root : ∀ X ∈ Xs, ∀ q, C.isReg q → (M.forest q).merged = false → Up M.forest X q → q = X
  due : ∀ e ∈ ds, e.1 = none

omit [DecidableEq ι] in
theorem realPar_det {F : Forest ι} {s : ι} {o o' : Option ι} (hl : ∀ x, o = some x → (F x).merged = false)
    (hp : (F s).parent = o) (h : RealPar F s o') : o' = o := by
  cases h with
  | none h => rw [← hp, h]
  | some y x k h hr =>
    rw [h] at hp
    subst hp
    cases k with
    | zero => rw [hr.2]
    | succ k => have := hl y rfl; rw [hr.1] at this; simp at this

omit [DecidableEq ι] in
theorem realPar_of {F : Forest ι} {s : ι} {o : Option ι} (hl : ∀ x, o = some x → (F x).merged = false)
    (hp : (F s).parent = o) : RealPar F s o := by
  cases o with
  | none => exact .none hp
  | some x => exact .some x x 0 hp ⟨hl x rfl, rfl⟩

/-- The effect of the parent macro on memory. -/
structure Stored (C : Ctx ι α) (M M1 : Mem ι) (s : ι) (sp : Option ι) : Prop where
  eq : M1 = { M with regs := update M.regs s { M.regs s with parent := sp } }
  forest : M1.forest = setParent M.forest s sp
  comp : Compressed C.isReg C.gr M.forest M1.forest M.merges s sp

theorem Stored.lists {M M1 : Mem ι} {s : ι} {sp : Option ι} (h : Stored C M M1 s sp) : SameLists M M1 := by
  rw [h.eq]
  have : ∀ q, update M.regs s { M.regs s with parent := sp } q = { M.regs q with parent := if q = s then sp else (M.regs q).parent } := by
    intro q
    by_cases e : q = s
    · subst e; simp
    · rw [Function.update_of_ne e, if_neg e]
  refine ⟨?_, ?_, ?_, ?_, ?_, rfl, rfl⟩ <;> intro q <;> dsimp only <;> rw [this]

theorem Stored.merges {M M1 : Mem ι} {s : ι} {sp : Option ι} (h : Stored C M M1 s sp) : M1.merges = M.merges := by
  rw [h.eq]

theorem Stored.patch {M M1 : Mem ι} {s : ι} {sp : Option ι} (h : Stored C M M1 s sp) (q : ι) :
    (M1.regs q).patch = (M.regs q).patch := by
  rw [h.eq]; dsimp only
  by_cases e : q = s
  · subst e; simp
  · rw [Function.update_of_ne e]

theorem Stored.parent {M M1 : Mem ι} {s : ι} {sp : Option ι} (h : Stored C M M1 s sp) {q : ι} (hq : q ≠ s) :
    (M1.regs q).parent = (M.regs q).parent := by
  rw [h.eq]; dsimp only; rw [Function.update_of_ne hq]

theorem stored {M : Mem ι} (hs : Str C.isReg C.gr M.forest M.merges) (hf : M.merges ≤ fuel) {s : ι} (hsr : C.isReg s)
    (hsl : (M.forest s).merged = false) :
    ∃ M1 sp, getSetParent fuel M s = some (M1, sp) ∧ chase M.forest fuel (M.regs s).parent = some sp ∧ Stored C M M1 s sp := by
  obtain ⟨sp, hch, hrp⟩ := hs.chase_parent hf hsr
  have hch' : chase M.forest fuel (M.regs s).parent = some sp := hch
  have hc := Connect.compress hs hsr hsl hrp
  have hfor : Mem.forest { M with regs := update M.regs s { M.regs s with parent := sp } } = setParent M.forest s sp := by
    funext q
    unfold setParent Mem.forest
    by_cases e : q = s
    · subst e; simp
    · simp [Function.update_of_ne e]
  refine ⟨_, sp, ?_, hch', rfl, hfor, by rw [hfor]; exact hc⟩
  unfold getSetParent
  rw [hch']

theorem Stored.ls {M M1 : Mem ι} {s : ι} {sp : Option ι} (h : Stored C M M1 s sp) {L : ι → List Nat} {Xs : List ι}
    {ds : List (Option ι × Int)} {hot : ι → Prop} (hl : LS D own C.isReg M.forest M L Xs ds hot) :
    LS D own C.isReg M1.forest M1 L Xs ds hot := hl.congr h.comp.merged h.comp.up h.lists

theorem Stored.inv {M M1 : Mem ι} {s : ι} {sp sm bg : Option ι} {pix : Nat} (h : Stored C M M1 s sp)
    (hl : LInv C ⟨M.forest, sm, bg, pix, M.merges⟩) : LInv C ⟨M1.forest, sm, bg, pix, M1.merges⟩ := by
  have hc := h.comp
  rw [h.forest] at hc
  rw [h.forest, h.merges]
  exact hl.compress hc

theorem SameShape.forest {M M' : Mem ι} (h : SameShape M M') : (∀ r, (M'.forest r).gray = (M.forest r).gray) ∧
    (∀ r, (M'.forest r).merged = (M.forest r).merged) ∧ (∀ r, (M'.forest r).parent = (M.forest r).parent) :=
  ⟨h.gray, h.merged, h.parent⟩

/-- `smaller` with the flag set (2283–2284). -/
def flag (m : Bool) (M : Mem ι) (s : ι) : Mem ι :=
  if m then { M with regs := update M.regs s { M.regs s with merged := true }, merges := M.merges + 1 } else M

theorem flag_lists (m : Bool) (M : Mem ι) (s : ι) : SameLists M (flag m M s) := by
  unfold flag
  cases m
  · exact ⟨fun _ => rfl, fun _ => rfl, fun _ => rfl, fun _ => rfl, fun _ => rfl, rfl, rfl⟩
  · have : ∀ q, update M.regs s { M.regs s with merged := true } q = { M.regs q with merged := if q = s then true else (M.regs q).merged } := by
      intro q
      by_cases e : q = s
      · subst e; simp
      · rw [Function.update_of_ne e, if_neg e]
    refine ⟨?_, ?_, ?_, ?_, ?_, rfl, rfl⟩ <;> intro q <;> simp only [if_true] <;> rw [this]

theorem flag_regs (m : Bool) (M : Mem ι) (s : ι) : (∀ q, ((flag m M s).regs q).gray = (M.regs q).gray) ∧
    (∀ q, ((flag m M s).regs q).parent = (M.regs q).parent) ∧ (∀ q, ((flag m M s).regs q).patch = (M.regs q).patch) ∧
    (∀ q, q ≠ s → ((flag m M s).regs q).merged = (M.regs q).merged) ∧
    ((flag m M s).regs s).merged = (m || (M.regs s).merged) ∧ (flag m M s).merges = if m then M.merges + 1 else M.merges := by
  unfold flag
  cases m
  · simp
  · simp only [if_true]
    have : ∀ q, update M.regs s { M.regs s with merged := true } q = { M.regs q with merged := if q = s then true else (M.regs q).merged } := by
      intro q
      by_cases e : q = s
      · subst e; simp
      · rw [Function.update_of_ne e, if_neg e]
    refine ⟨?_, ?_, ?_, ?_, ?_, trivial⟩
    · intro q; rw [this]
    · intro q; rw [this]
    · intro q; rw [this]
    · intro q e; rw [this, if_neg e]
    · rw [this]; simp

omit [DecidableEq ι] in
theorem slot_congr {M M' : Mem ι} (h : ∀ q, (M'.regs q).patch = (M.regs q).patch) (q : ι) : slot split M' q = slot split M q := by
  unfold slot; rw [h]

omit [DecidableEq ι] in
theorem not_inn_nil {F : Forest ι} (q : ι) : ¬ Inn F [] q := by rintro ⟨X, hX, _⟩; simp at hX

/-- How `linkTo` may begin: nothing cut off yet, or `s` cut off. -/
def LinkStart (split : Nat) (C : Ctx ι α) (D : Nat → Prop) (own : Nat → ι) (c : VSt ι) (s b : ι) (sp : Option ι) : Prop :=
  ((∀ k, c.lb k = none) ∧ ∃ L, LS D own C.isReg c.M.forest c.M L [] [] (fun _ => False)) ∨
  (c.lb (slot split c.M s) = some s ∧ (∀ k y, c.lb k = some y → Up c.M.forest y s) ∧
    ∃ L ds, LS D own C.isReg c.M.forest c.M L [s] ds (fun _ => False) ∧ ∀ e ∈ ds, e.1 = none ∨ e.1 = sp ∨ e.1 = some b)

/-- First half of `linkTo`: `s` is cut off. -/
theorem linkFirst {s b : ι} {sp : Option ι} (m : Bool) (hs : Str C.isReg C.gr c.M.forest c.M.merges)
    (hsr : C.isReg s) (hsl : (c.M.forest s).merged = false) (hps : (c.M.regs s).parent = sp)
    (hsp : ∀ x, sp = some x → C.isReg x ∧ (c.M.forest x).merged = false ∧ C.gr s < C.gr x)
    (hst : LinkStart split C D own c s b sp) (hmp : c.M.mp.length ≤ fuel) :
    ∃ M1 lb1 L ds, breakOff fuel split (flag m c.M s) c.lb s = some (M1, lb1) ∧ SameShape (flag m c.M s) M1 ∧
      M1.mp.length ≤ c.M.mp.length + 1 ∧ lb1 (slot split c.M s) = some s ∧
      (∀ k y, lb1 k = some y → Up c.M.forest y s) ∧
      LS D own C.isReg c.M.forest M1 L [s] ds (fun _ => False) ∧ ∀ e ∈ ds, e.1 = none ∨ e.1 = sp ∨ e.1 = some b := by
  obtain ⟨f1, f2, f3, f4, f5, f6⟩ := flag_regs m c.M s
  have hfl := flag_lists m c.M s
  rcases hst with ⟨hlb, L, hL⟩ | ⟨hlb, hbel, L, ds, hL, hpos⟩
  · have hL' := hL.congr (F1 := c.M.forest) (fun _ => rfl) (fun _ _ _ => Iff.rfl) hfl
    have hspl : ∀ x, sp = some x → ((flag m c.M s).regs x).merged = false := by
      intro x hx
      have := hsp x hx
      rw [f4 x (by rintro rfl; omega)]; exact this.2.1
    obtain ⟨M1, h1, h2, h3, h4, h5, h6, h7⟩ := hL'.detach hs hsr hsl (not_inn_nil s) (by rw [f2]; exact hps)
      (realPar_of (F := c.M.forest) (fun x hx => (hsp x hx).2.1) hps) hspl (by simp) (fuel := fuel) (by rw [hfl.mp]; exact hmp)
    refine ⟨M1, update c.lb (slot split M1 s) (some s), _, _, ?_, h2, by rw [hfl.mp] at h3; exact h3, ?_, ?_, h4.cool ?_, ?_⟩
    · unfold breakOff
      rw [hlb, if_pos (by simp), h1]
    · have : slot split M1 s = slot split c.M s := slot_congr (fun q => (h2.patch q).trans (f3 q)) s
      rw [this, Function.update_self]
    · intro k y hy
      by_cases e : k = slot split M1 s
      · rw [e, Function.update_self] at hy
        obtain rfl := Option.some.inj hy; exact .refl
      · rw [Function.update_of_ne e, hlb] at hy; simp at hy
    · intro q _ _ _ hh _
      obtain rfl : q = s := by simpa using hh
      obtain ⟨k1, k2⟩ := h6 (by simp)
      rw [cutL_in (.inr .refl)]
      exact ⟨⟨h5, k1⟩, k2⟩
    · intro e he
      rcases List.mem_cons.1 he with rfl | he
      · exact .inr (.inl rfl)
      · simp [drop] at he
  · have hL' := hL.congr (F1 := c.M.forest) (fun _ => rfl) (fun _ _ _ => Iff.rfl) hfl
    refine ⟨flag m c.M s, c.lb, L, ds, ?_, SameShape.refl _, by rw [hfl.mp]; omega, hlb, hbel, hL', hpos⟩
    unfold breakOff
    rw [slot_congr f3, hlb]; simp

theorem linkTo_spec (hC : ¬ C.track) {s b : ι} {sp bp : Option ι} {pix : Nat} {m : Bool}
    (hinv : LInv C ⟨c.M.forest, some s, some b, pix, c.M.merges⟩) (hne : s ≠ b) (hle : C.gr s ≤ C.gr b)
    (hps : (c.M.regs s).parent = sp) (hpb : (c.M.regs b).parent = bp)
    (hsp : ∀ x, sp = some x → C.isReg x ∧ (c.M.forest x).merged = false ∧ C.gr s < C.gr x)
    (hbp : ∀ x, bp = some x → C.isReg x ∧ (c.M.forest x).merged = false ∧ C.gr b < C.gr x)
    (hord : ∀ x, sp = some x → C.gr b < C.gr x) (hm : m = decide (C.gr s = C.gr b))
    (hst : LinkStart split C D own c s b sp) (hmp : c.M.mp.length + 1 ≤ fuel) :
    ∃ c' L ds, linkTo fuel split c s b sp m = some c' ∧ Phase2 split C D own c' b L ds ∧ c'.bigger = sp ∧
      c.M.merges ≤ c'.M.merges ∧ c'.M.merges ≤ c.M.merges + 1 ∧ c'.M.mp.length ≤ c.M.mp.length + 2 := by
  have hs : Str C.isReg C.gr c.M.forest c.M.merges := hinv.str
  obtain ⟨_, e0, hsr, hsl⟩ := hinv.s_ok
  obtain rfl := Option.some.inj e0
  obtain ⟨hbr, hbl⟩ := hinv.b_ok b rfl
  dsimp only at hsl hbl
  obtain ⟨f1, f2, f3, f4, f5, f6⟩ := flag_regs m c.M s
  obtain ⟨M1, lb1, L1, ds1, a1, a2, a3, a4, a5, a6, a7⟩ := linkFirst (fuel := fuel) m hs hsr hsl hps hsp hst (by omega)
  have hbs : ¬ Up c.M.forest b s := fun k => by have := hs.up_lt hbr hbl k (Ne.symm hne); omega
  have hspb : ¬ UpO c.M.forest sp b := by
    rintro ⟨x, hx, k⟩
    have := (hs.up (hsp x hx).1 k).2
    have := hord x hx
    omega
  have hrs : RealPar c.M.forest s sp := realPar_of (F := c.M.forest) (fun x hx => (hsp x hx).2.1) hps
  have hsb : ¬ Up c.M.forest s b := fun k => hspb ((hrs.up_iff hbl hne).1 k)
  have hbps : ∀ x, bp = some x → x ≠ s := by rintro x hx rfl; have := hbp _ hx; omega
  obtain ⟨M2, b1, b2, b3, b4, b5, _, b7⟩ := a6.detach hs hbr hbl
    (by rintro ⟨X, hX, k⟩; obtain rfl : X = s := by simpa using hX
        exact hbs k)
    (show (M1.regs b).parent = bp by rw [a2.parent, f2]; exact hpb)
    (realPar_of (F := c.M.forest) (fun x hx => (hbp x hx).2.1) hpb)
    (by intro x hx; rw [a2.merged, f4 x (hbps x hx)]; exact (hbp x hx).2.1)
    (by
      intro e he k
      rcases a7 e he with k' | k' | k'
      · rw [k'] at k; obtain ⟨x, hx, _⟩ := k; simp at hx
      · rw [k'] at k; exact absurd k hspb
      · exact k')
    (fuel := fuel) (by omega)
  have hL2b : cutL c.M.forest [s] b L1 b = L1 b := cutL_in (.inr .refl)
  have hL2s : cutL c.M.forest [s] b L1 s = L1 s := cutL_in (.inl ⟨s, by simp, .refl⟩)
  -- the final memory
  generalize hM3 : append M2 b s = M3
  generalize hM4 : ({ M3 with regs := update M3.regs s { M3.regs s with parent := some b } } : Mem ι) = M4
  have h3 : ∀ q, (M3.regs q).gray = (M2.regs q).gray ∧ (M3.regs q).parent = (M2.regs q).parent ∧
      (M3.regs q).merged = (M2.regs q).merged ∧ (M3.regs q).patch = (M2.regs q).patch := by
    intro q; rw [← hM3]; unfold append; dsimp only
    by_cases e : q = b
    · subst e; simp
    · rw [Function.update_of_ne e]; exact ⟨rfl, rfl, rfl, rfl⟩
  have h4 : ∀ q, M4.regs q = { M3.regs q with parent := if q = s then some b else (M3.regs q).parent } := by
    intro q; rw [← hM4]; dsimp only
    by_cases e : q = s
    · subst e; simp
    · rw [Function.update_of_ne e, if_neg e]
  have hlists : SameLists M3 M4 := by
    refine ⟨?_, ?_, ?_, ?_, ?_, by rw [← hM4], by rw [← hM4]⟩ <;> intro q <;> rw [h4]
  have hmrg : M4.merges = if m then c.M.merges + 1 else c.M.merges := by
    have e1 : M4.merges = M2.merges := by rw [← hM4, ← hM3]; rfl
    rw [e1, b2.merges, a2.merges]; exact f6
  have hpar4 : ∀ q, q ≠ s → (M4.forest q).parent = (c.M.forest q).parent := by
    intro q e
    show (M4.regs q).parent = (c.M.regs q).parent
    rw [h4, if_neg e]; dsimp only
    rw [(h3 q).2.1, b2.parent, a2.parent, f2]
  have hpars4 : (M4.forest s).parent = some b := by
    show (M4.regs s).parent = _; rw [h4, if_pos rfl]
  have hmer4 : ∀ q, q ≠ s → (M4.forest q).merged = (c.M.forest q).merged := by
    intro q e
    show (M4.regs q).merged = (c.M.regs q).merged
    rw [h4]; dsimp only
    rw [(h3 q).2.2.1, b2.merged, a2.merged, f4 q e]
  have hmers4 : (M4.forest s).merged = m := by
    show (M4.regs s).merged = _
    rw [h4]; dsimp only
    rw [(h3 s).2.2.1, b2.merged, a2.merged, f5]
    have : (c.M.regs s).merged = false := hsl
    rw [this, Bool.or_false]
  have hgr4 : ∀ q, (M4.forest q).gray = (c.M.forest q).gray := by
    intro q
    show (M4.regs q).gray = (c.M.regs q).gray
    rw [h4]; dsimp only
    rw [(h3 q).1, b2.gray, a2.gray, f1]
  have hpat4 : ∀ q, (M4.regs q).patch = (c.M.regs q).patch := by
    intro q; rw [h4]; dsimp only; rw [(h3 q).2.2.2, b2.patch, a2.patch, f3]
  have hatt := LS.attach (F' := M4.forest) hs b4 hbs (.inr hsb) hpar4 hpars4 hmer4 (by
      intro q hq; simpa using hq) (by rw [hL2b]; exact b5) (by
      rw [hL2b, hL2s]
      refine b7.mono (fun a => ⟨rfl, rfl⟩) (fun a ha => ha) ?_
      rintro a (ha | ⟨X, hX, ha⟩)
      · exact .inl ha
      · obtain rfl : X = s := by simpa using hX
        exact .inr ha) (by
      intro e he x hx k
      rcases List.mem_cons.1 he with rfl | he
      · have := (hs.up (hbp x hx).1 k).2
        have := (hbp x hx).2.2
        omega
      · obtain ⟨he1, he2⟩ := mem_drop.1 he
        rcases a7 e he1 with k' | k' | k'
        · rw [k'] at hx; simp at hx
        · rw [k'] at hx
          have := (hs.up (hsp x hx).1 k).2
          have := (hsp x hx).2.2
          omega
        · exact he2 k')
  rw [hM3] at hatt
  have hatt4 := hatt.congr (F1 := M4.forest) (fun _ => rfl) (fun _ _ _ => Iff.rfl) hlists
  have hlink := Connect.link hinv hne hle hps hsp (fun x hx => (hord x hx).le)
  have hgd : decide ((c.M.forest b).gray = (c.M.forest s).gray) = m := by
    rw [hm, hs.gray, hs.gray]; exact decide_eq_decide.2 eq_comm
  rw [hgd] at hlink
  have hinv4 := retag (F1 := M4.forest) (pix' := 1) hC hlink
    (by
      intro r; rw [hgr4]
      by_cases e : r = s
      · subst e; simp
      · rw [Function.update_of_ne e])
    (by
      intro r
      by_cases e : r = s
      · subst e; rw [hmers4]; simp [hsl]
      · rw [Function.update_of_ne e, hmer4 r e])
    (by
      intro r
      by_cases e : r = s
      · subst e; rw [hpars4]; simp
      · rw [Function.update_of_ne e, hpar4 r e])
    (.inr (by
      intro s' b' e1 e2
      obtain rfl := Option.some.inj e1
      exact (hord b' e2).le))
  rw [← hmrg] at hinv4
  have hup4 : ∀ {y}, Up c.M.forest y s → Up M4.forest y b := fun k => .tail (up_to hpar4 k) hpars4
  have hlbb : lb1 (slot split M1 b) ≠ some b := fun k => hbs (a5 _ _ k)
  refine ⟨⟨M4, some b, sp, update lb1 (slot split M2 b) (some b), true⟩, _, _, ?_, ⟨rfl, ?_, rfl, ?_, ?_, hinv4, hatt4, ?_⟩, rfl, ?_, ?_, ?_⟩
  · unfold linkTo
    dsimp only
    have e1 : (if m = true then ({ c.M with regs := update c.M.regs s { c.M.regs s with merged := true }, merges := c.M.merges + 1 } : Mem ι) else c.M) = flag m c.M s := rfl
    rw [e1, a1]
    dsimp only
    have e2 : breakOff fuel split M1 lb1 b = some (M2, update lb1 (slot split M2 b) (some b)) := by
      unfold breakOff; rw [if_pos hlbb, b1]
    rw [e2]
    dsimp only
    rw [hM3, hM4]
  · intro k
    have := hord b k; omega
  · dsimp only
    have : slot split M2 b = slot split M4 b := slot_congr (fun q => by
      rw [b2.patch, a2.patch, f3, hpat4]) b
    rw [← this, Function.update_self]
  · dsimp only
    intro k y hy
    by_cases e : k = slot split M2 b
    · rw [e, Function.update_self] at hy
      obtain rfl := Option.some.inj hy; exact .refl
    · rw [Function.update_of_ne e] at hy
      exact hup4 (a5 k y hy)
  · dsimp only
    intro e he
    rcases List.mem_cons.1 he with rfl | he
    · right; left
      refine realPar_of ?_ (by rw [hpar4 b (Ne.symm hne)]; exact hpb)
      intro x hx; dsimp only at hx; rw [hmer4 x (hbps x hx)]; exact (hbp x hx).2.1
    · obtain ⟨he1, he2⟩ := mem_drop.1 he
      rcases a7 e he1 with k' | k' | k'
      · exact .inl k'
      · exact .inr (.inr k')
      · exact absurd k' he2
  · dsimp only; rw [hmrg]; split <;> omega
  · dsimp only; rw [hmrg]; split <;> omega
  · dsimp only
    have : M4.mp = M2.mp := by rw [← hM4, ← hM3]; rfl
    rw [this]; omega
end

end Verif.V1
