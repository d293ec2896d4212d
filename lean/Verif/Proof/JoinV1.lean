import Verif.Proof.LoopV1

/-!
# Fast MSER V1: sequences of joins
-/

namespace Verif.V1

open Function (update)
open Relation (ReflTransGen)
open Verif.Spec (Linked LConn)
open Verif.Connect (Forest chase Up UpO Str Ctx LInv CSt ConnOk edge pend val chase_res no_pend Lab Good addPair addPairs cnt Done
  World)

variable {ι : Type} [DecidableEq ι] {α : Type}

/-! ### What joining does not touch -/

/-- Positions of points, patches and heads of regions stay. -/
structure Fixed (M M' : Mem ι) : Prop where
  x : ∀ a, (M'.pts a).x = (M.pts a).x
  y : ∀ a, (M'.pts a).y = (M.pts a).y
  patch : ∀ q, (M'.regs q).patch = (M.regs q).patch
  head : ∀ q, (M'.regs q).head = (M.regs q).head

omit [DecidableEq ι] in
theorem Fixed.refl (M : Mem ι) : Fixed M M := ⟨fun _ => rfl, fun _ => rfl, fun _ => rfl, fun _ => rfl⟩

omit [DecidableEq ι] in
theorem Fixed.trans {M M' M'' : Mem ι} (h : Fixed M M') (h' : Fixed M' M'') : Fixed M M'' :=
  ⟨fun a => (h'.x a).trans (h.x a), fun a => (h'.y a).trans (h.y a), fun a => (h'.patch a).trans (h.patch a),
    fun a => (h'.head a).trans (h.head a)⟩

/-- Points keep their position. -/
def SameXY (pts pts' : Nat → Point) : Prop := ∀ a, (pts' a).x = (pts a).x ∧ (pts' a).y = (pts a).y

theorem sameXY_update {pts : Nat → Point} {t : Nat} {P : Point} (hx : P.x = (pts t).x) (hy : P.y = (pts t).y) :
    SameXY pts (update pts t P) := by
  intro a
  by_cases e : a = t
  · subst e; rw [Function.update_self]; exact ⟨hx, hy⟩
  · rw [Function.update_of_ne e]; exact ⟨rfl, rfl⟩

theorem SameXY.trans {p q r : Nat → Point} (h : SameXY p q) (h' : SameXY q r) : SameXY p r :=
  fun a => ⟨(h' a).1.trans (h a).1, (h' a).2.trans (h a).2⟩

theorem SameXY.refl (p : Nat → Point) : SameXY p p := fun _ => ⟨rfl, rfl⟩

/-- Regions keep patch and head. -/
def SamePH (regs regs' : ι → CReg ι) : Prop := ∀ q, (regs' q).patch = (regs q).patch ∧ (regs' q).head = (regs q).head

theorem samePH_update {regs : ι → CReg ι} {t : ι} {R : CReg ι} (hx : R.patch = (regs t).patch) (hy : R.head = (regs t).head) :
    SamePH regs (update regs t R) := by
  intro a
  by_cases e : a = t
  · subst e; rw [Function.update_self]; exact ⟨hx, hy⟩
  · rw [Function.update_of_ne e]; exact ⟨rfl, rfl⟩

omit [DecidableEq ι] in
theorem SamePH.trans {p q r : ι → CReg ι} (h : SamePH p q) (h' : SamePH q r) : SamePH p r :=
  fun a => ⟨(h' a).1.trans (h a).1, (h' a).2.trans (h a).2⟩

omit [DecidableEq ι] in
theorem SamePH.refl (p : ι → CReg ι) : SamePH p p := fun _ => ⟨rfl, rfl⟩

omit [DecidableEq ι] in
theorem Fixed.mk' {M M' : Mem ι} (h : SameXY M.pts M'.pts) (h' : SamePH M.regs M'.regs) : Fixed M M' :=
  ⟨fun a => (h a).1, fun a => (h a).2, fun q => (h' q).1, fun q => (h' q).2⟩

omit [DecidableEq ι] in
theorem Fixed.xy {M M' : Mem ι} (h : Fixed M M') : SameXY M.pts M'.pts := fun a => ⟨h.x a, h.y a⟩

omit [DecidableEq ι] in
theorem Fixed.ph {M M' : Mem ι} (h : Fixed M M') : SamePH M.regs M'.regs := fun a => ⟨h.patch a, h.head a⟩

theorem getSetParent_fixed {fuel : Nat} {M M' : Mem ι} {r : ι} {o : Option ι} (h : getSetParent fuel M r = some (M', o)) :
    Fixed M M' := by
  unfold getSetParent at h
  split at h
  · simp at h
  · simp only [Option.some.injEq, Prod.mk.injEq] at h
    obtain ⟨rfl, rfl⟩ := h
    exact Fixed.mk' (SameXY.refl _) (samePH_update rfl rfl)

theorem getRealTail_xy {fuel : Nat} {pts pts' : Nat → Point} {t u : Nat} (h : getRealTail fuel pts t = some (pts', u)) :
    SameXY pts pts' := by
  unfold getRealTail at h
  split at h
  · simp at h
  · simp only [Option.some.injEq, Prod.mk.injEq] at h
    obtain ⟨rfl, rfl⟩ := h
    split
    · exact sameXY_update rfl rfl
    · exact SameXY.refl _

theorem unlink_xy (pts : Nat → Point) (h t : Nat) : SameXY pts (unlink pts h t) :=
  fun a => (unlink_other pts h t a).2

theorem disconnect_fixed {fuel : Nat} {M M' : Mem ι} {r : ι} (h : disconnect fuel M r = some M') : Fixed M M' := by
  unfold disconnect at h
  split at h
  · simp at h
  · rename_i pts rt h1
    have k1 := (getRealTail_xy h1).trans (unlink_xy pts (M.regs r).head rt)
    dsimp only at h
    split at h
    · simp at h
    · rename_i M1 o h2
      have k2 := getSetParent_fixed h2
      split at h
      · simp at h
      · rename_i M2 h3
        have k3 : Fixed M1 M2 := by
          split at h3
          · obtain rfl := Option.some.inj h3; exact Fixed.refl _
          · split at h3
            · simp at h3
            · rename_i pts' prt h4
              have k4 := getRealTail_xy h4
              split at h3
              · obtain rfl := Option.some.inj h3
                exact Fixed.mk' (k4.trans (sameXY_update rfl rfl)) (samePH_update rfl rfl)
              · obtain rfl := Option.some.inj h3
                exact Fixed.mk' k4 (samePH_update rfl rfl)
        obtain rfl := Option.some.inj h
        have k0 : Fixed M { M with pts := unlink pts (M.regs r).head rt } := Fixed.mk' k1 (SamePH.refl _)
        refine (k0.trans (k2.trans k3)).trans (Fixed.mk' ?_ (samePH_update rfl rfl))
        dsimp only
        apply SameXY.trans _ (sameXY_update _ _)
        · exact sameXY_update rfl rfl
        · rfl
        · rfl

theorem append_fixed (M : Mem ι) (b s : ι) : Fixed M (append M b s) := by
  unfold append
  refine Fixed.mk' ?_ (samePH_update rfl rfl)
  dsimp only
  apply SameXY.trans _ (sameXY_update _ _)
  · exact sameXY_update rfl rfl
  · rfl
  · rfl

theorem breakOff_fixed {fuel split : Nat} {M M' : Mem ι} {lb lb' : Bool → Option ι} {r : ι}
    (h : breakOff fuel split M lb r = some (M', lb')) : Fixed M M' := by
  unfold breakOff at h
  split at h
  · split at h
    · simp at h
    · rename_i M1 h1
      simp only [Option.some.injEq, Prod.mk.injEq] at h
      obtain ⟨rfl, _⟩ := h
      exact disconnect_fixed h1
  · simp only [Option.some.injEq, Prod.mk.injEq] at h
    obtain ⟨rfl, _⟩ := h
    exact Fixed.refl _

theorem climb_fixed {fuel split : Nat} {c c' : VSt ι} {s : ι} {sp : Option ι} (h : climb fuel split c s sp = some c') :
    Fixed c.M c'.M := by
  unfold climb at h
  split at h
  · obtain rfl := Option.some.inj h; exact Fixed.refl _
  · split at h
    · split at h
      · simp at h
      · rename_i M1 h1
        obtain rfl := Option.some.inj h
        exact (disconnect_fixed h1).trans (append_fixed _ _ _)
    · obtain rfl := Option.some.inj h; exact Fixed.refl _

theorem linkTo_fixed {fuel split : Nat} {c c' : VSt ι} {s b : ι} {sp : Option ι} {m : Bool}
    (h : linkTo fuel split c s b sp m = some c') : Fixed c.M c'.M := by
  unfold linkTo at h
  dsimp only at h
  split at h
  · simp at h
  · rename_i M1 lb1 h1
    split at h
    · simp at h
    · rename_i M2 lb2 h2
      obtain rfl := Option.some.inj h
      have k1 := breakOff_fixed h1
      have k0 : Fixed c.M (if m = true then
          { c.M with regs := update c.M.regs s { c.M.regs s with merged := true }, merges := c.M.merges + 1 } else c.M) := by
        split
        · exact Fixed.mk' (SameXY.refl _) (samePH_update rfl rfl)
        · exact Fixed.refl _
      refine ((k0.trans k1).trans (breakOff_fixed h2)).trans ((append_fixed _ b s).trans ?_)
      exact Fixed.mk' (SameXY.refl _) (samePH_update rfl rfl)

theorem meet_M (c : VSt ι) : (meet c).M = c.M := by unfold meet; split <;> rfl

/-- The memory after an iteration, if there is one. -/
def VRes.Fx (M : Mem ι) : VRes ι → Prop
  | .next c => Fixed M c.M
  | .stop c => Fixed M c.M
  | .stuck => True

theorem connectBody_fixed (fuel split : Nat) (c : VSt ι) (s : ι) (bg : Option ι) :
    (connectBody fuel split c s bg).Fx c.M := by
  unfold connectBody
  split
  · trivial
  · rename_i M sp h1
    have k1 := getSetParent_fixed h1
    dsimp only
    split
    · exact k1
    · split
      · split
        · trivial
        · rename_i c1 h2
          exact k1.trans (climb_fixed h2)
      · rename_i b
        split
        · trivial
        · rename_i M2 o2 h2
          have k2 := k1.trans (getSetParent_fixed h2)
          split
          · trivial
          · rename_i c3 h3
            show Fixed c.M (meet c3).M
            rw [meet_M]
            refine k2.trans ?_
            split at h3
            · exact linkTo_fixed h3
            · split at h3
              · exact linkTo_fixed h3
              · split at h3
                · exact linkTo_fixed h3
                · exact climb_fixed h3

theorem connectStep_fixed (fuel split : Nat) (c : VSt ι) : (connectStep fuel split c).Fx c.M := by
  unfold connectStep
  split
  · exact Fixed.refl _
  · split
    · exact connectBody_fixed _ _ _ _ _
    · split <;> exact connectBody_fixed _ _ _ _ _

theorem connectLoop_fixed {fuel split : Nat} : ∀ {n : Nat} {c c' : VSt ι}, connectLoop fuel split n c = some c' →
    Fixed c.M c'.M
  | 0, c, c', h => by simp [connectLoop] at h
  | n + 1, c, c', h => by
    unfold connectLoop at h
    have k := connectStep_fixed fuel split c
    split at h
    · rename_i c1 h1
      rw [h1] at k
      exact Fixed.trans k (connectLoop_fixed h)
    · rename_i c1 h1
      rw [h1] at k
      obtain rfl := Option.some.inj h
      exact k
    · simp at h

omit [DecidableEq ι] in
theorem resetRefs_fixed (M : Mem ι) : Fixed M (resetRefs M) :=
  ⟨fun a => (resetRefs_pts M.mp M.pts a).2.2.2.1, fun a => (resetRefs_pts M.mp M.pts a).2.2.2.2, fun _ => rfl, fun _ => rfl⟩

theorem connect_fixed {fuel steps split : Nat} {M M' : Mem ι} {a b : Option ι} (h : connect fuel steps split M a b = some M') :
    Fixed M M' := by
  unfold connect at h
  split at h
  · obtain rfl := Option.some.inj h; exact Fixed.refl _
  · split at h
    · simp at h
    · rename_i c h1
      obtain rfl := Option.some.inj h
      exact (connectLoop_fixed h1).trans (resetRefs_fixed _)

theorem joinAt_fixed {fuel steps split : Nat} {M M' : Mem ι} {a b : ι} (h : joinAt fuel steps split M a b = some M') :
    Fixed M M' := by
  unfold joinAt at h
  split at h
  · exact connect_fixed h
  · simp at h

theorem joinAll_fixed {fuel steps : Nat} : ∀ {l : List (ι × ι × Nat)} {M M' : Mem ι}, joinAll fuel steps M l = some M' →
    Fixed M M'
  | [], M, M', h => by simp only [joinAll, Option.some.injEq] at h; subst h; exact Fixed.refl _
  | (a, b, k) :: l, M, M', h => by
    unfold joinAll at h
    split at h
    · simp at h
    · rename_i M1 h1
      exact (joinAt_fixed h1).trans (joinAll_fixed h)

/-! ### Sizes -/

section
variable {C : Ctx ι α} {D : Nat → Prop} {own : Nat → ι} {pix : Nat → α}

/-- Points and pixels correspond; `own p` is the region the pixel of point `p` was put into by flooding. -/
structure Points2 (C : Ctx ι α) (D : Nat → Prop) (own : Nat → ι) (pix : Nat → α) : Prop where
  px : ∀ p, D p → pix p ∈ C.px
  inj : ∀ p q, D p → D q → pix p = pix q → p = q
  surj : ∀ a ∈ C.px, ∃ p, D p ∧ pix p = a
  own : ∀ p, D p → own p = C.lab (pix p)

omit [DecidableEq ι] in
theorem LS.length {F : Forest ι} {M : Mem ι} {L : ι → List Nat} {ds : List (Option ι × Int)} {hot : ι → Prop}
    (hP : Points2 C D own pix) (h : LS D own C.isReg F M L [] ds hot) {r : ι} (hr : C.isReg r) (hl : (F r).merged = false) :
    (L r).length = cnt C.px C.lab F r := by
  classical
  have hmem := h.mem r hr hl
  have hnd : ((L r).map pix).Nodup := by
    refine List.Nodup.map_on ?_ (h.nodup r hr hl)
    intro p hp q hq e
    exact hP.inj p q ((hmem p).1 hp).1 ((hmem q).1 hq).1 e
  have hset : ((L r).map pix).toFinset = C.px.filter (fun a => Up F (C.lab a) r) := by
    ext a
    rw [List.mem_toFinset, List.mem_map, Finset.mem_filter]
    constructor
    · rintro ⟨p, hp, rfl⟩
      obtain ⟨h1, h2, _⟩ := (hmem p).1 hp
      exact ⟨hP.px p h1, by rw [← hP.own p h1]; exact h2⟩
    · rintro ⟨h1, h2⟩
      obtain ⟨p, h3, rfl⟩ := hP.surj a h1
      exact ⟨p, (hmem p).2 ⟨h3, by rw [hP.own p h3]; exact h2, fun X hX => by simp at hX⟩, rfl⟩
  have := List.toFinset_card_of_nodup hnd
  rw [List.length_map, hset] at this
  unfold cnt
  rw [← this]

omit [DecidableEq ι] in
theorem LS.size_cnt {M : Mem ι} {L : ι → List Nat} {hot : ι → Prop}
    (hP : Points2 C D own pix) (h : LS D own C.isReg M.forest M L [] [] hot) {r : ι} (hr : C.isReg r)
    (hl : (M.forest r).merged = false) : (M.forest r).size = cnt C.px C.lab M.forest r := by
  rw [← h.length hP hr hl]
  obtain ⟨h1, h2⟩ := h.sizeOut r hr hl (by rintro ⟨X, hX, _⟩; simp at hX)
  rw [due_nil] at h1 h2
  show (M.regs r).size.toNat = _
  omega

/-! ### One join -/

/-- The memory describes the graph `adj`. -/
structure VGood (C : Ctx ι α) (D : Nat → Prop) (own : Nat → ι) (adj : α → α → Prop) (M : Mem ι) : Prop where
  good : Good C adj ⟨M.forest, M.merges⟩
  lists : ∃ L, LS D own C.isReg M.forest M L [] [] (fun _ => False)
  mp : M.mp = []

/-- Sizes are not followed. -/
def untracked (C : Ctx ι α) : Ctx ι α := { C with track := False }

theorem addPair_px {adj : α → α → Prop} {px : Finset α} (h : ∀ x y, adj x y → x ∈ px ∧ y ∈ px) {p q : α} (hp : p ∈ px)
    (hq : q ∈ px) : ∀ x y, addPair adj p q x y → x ∈ px ∧ y ∈ px := by
  rintro x y (e | ⟨e1, e2⟩ | ⟨e1, e2⟩)
  · exact h x y e
  · subst e1 e2; exact ⟨hp, hq⟩
  · subst e1 e2; exact ⟨hq, hp⟩

theorem addPair_symm {adj : α → α → Prop} (h : ∀ x y, adj x y → adj y x) {p q : α} :
    ∀ x y, addPair adj p q x y → addPair adj p q y x := by
  rintro x y (e | ⟨e1, e2⟩ | ⟨e1, e2⟩)
  · exact .inl (h _ _ e)
  · exact .inr (.inr ⟨e2, e1⟩)
  · exact .inr (.inl ⟨e2, e1⟩)

theorem joinAt_vgood (hL : Lab C) (hP : Points2 C D own pix) {adj : α → α → Prop} {M : Mem ι} (h : VGood C D own adj M)
    {p q : α} (hp : p ∈ C.px) (hq : q ∈ C.px) {fuel steps split : Nat} (hf : M.merges + 2 * steps ≤ fuel)
    (hn : 513 ≤ steps) :
    ∃ M', joinAt fuel steps split M (C.lab p) (C.lab q) = some M' ∧ VGood C D own (addPair adj p q) M' ∧
      M'.merges ≤ M.merges + steps := by
  have hpr := hL.lab_reg p hp
  have hqr := hL.lab_reg q hq
  have hstr : Str C.isReg C.gr M.forest M.merges := h.good.done.str
  obtain ⟨k, hk, a, ha⟩ := hstr.res _ hpr
  obtain ⟨k', hk', b, hb⟩ := hstr.res _ hqr
  obtain ⟨L, hLS⟩ := h.lists
  have hpx := addPair_px h.good.adj_px hp hq
  have hsy := addPair_symm (p := p) (q := q) h.good.adj_symm
  have hinv := h.good.pending hL hp hq ha hb
  unfold joinAt
  rw [chase_res ha (by omega), chase_res hb (by omega)]
  dsimp only
  unfold connect
  by_cases e : a = b
  · subst e
    rw [if_pos rfl]
    refine ⟨M, rfl, ⟨⟨⟨hstr, ?_, fun _ r hr hl => hLS.size_cnt hP hr hl⟩, hpx, hsy⟩, h.lists, h.mp⟩, by omega⟩
    intro l u hu v hv hul hvl
    rw [hinv.conn l u hu v hv hul hvl]
    refine no_pend ?_
    dsimp only
    rintro x y (⟨e1, e2⟩ | ⟨e1, e2⟩) <;> (rw [e1] at e2; first | exact Option.some.inj e2 | exact (Option.some.inj e2).symm)
  · rw [if_neg (by intro k; exact e (Option.some.inj k))]
    have hinv0 : LInv (untracked (C.on (addPair adj p q))) ⟨M.forest, some b, some a, 0, M.merges⟩ :=
      ⟨hinv.str, hinv.s_ok, hinv.b_ok, hinv.ord, hinv.conn, fun ht => absurd ht not_false⟩
    have h1 : Phase1 (untracked (C.on (addPair adj p q))) D own ⟨M, some b, some a, fun _ => none, false⟩ b a L :=
      ⟨rfl, rfl, fun k => e k.symm, rfl, fun _ => rfl, hinv0, hLS⟩
    obtain ⟨c', k1, ⟨Xs, L', ds, k2⟩, k3, k4⟩ := connectLoop_spec (fuel := fuel) (split := split) (D := D) (own := own)
      (C := untracked (C.on (addPair adj p q))) not_false steps ⟨M, some b, some a, fun _ => none, false⟩
      (.inl ⟨b, a, L, h1⟩) (by dsimp only; omega) (by dsimp only; rw [h.mp]; simp only [List.length_nil]; omega) (by omega)
    rw [k1]
    have hfin := k2.lists.finish k2.root k2.due
    have hforest : (resetRefs c'.M).forest = c'.M.forest := rfl
    refine ⟨resetRefs c'.M, rfl, ⟨⟨⟨k2.str, ?_, fun _ r hr hl => ?_⟩, hpx, hsy⟩, ⟨L', hfin⟩, rfl⟩, k4⟩
    · intro l u hu v hv hul hvl
      have := k2.conn l u hu v hv hul hvl
      refine Iff.trans this ?_
      refine no_pend ?_
      rintro x y (⟨e1, e2⟩ | ⟨e1, e2⟩) <;> simp at e1
    · exact LS.size_cnt (C := C) (M := resetRefs c'.M) hP hfin hr hl

theorem joinAll_vgood (hL : Lab C) (hP : Points2 C D own pix) {fuel steps : Nat} (hn : 513 ≤ steps) :
    ∀ (l : List ((α × α) × Nat)) {adj : α → α → Prop} {M : Mem ι}, VGood C D own adj M →
      (∀ e ∈ l, e.1.1 ∈ C.px ∧ e.1.2 ∈ C.px) → M.merges + steps * (l.length + 1) ≤ fuel →
      ∃ M', joinAll fuel steps M (l.map (fun e => (C.lab e.1.1, C.lab e.1.2, e.2))) = some M' ∧
        VGood C D own (addPairs adj (l.map Prod.fst)) M' ∧ M'.merges ≤ M.merges + steps * l.length
  | [], adj, M, h, _, _ => by
    refine ⟨M, rfl, ?_, by simp⟩
    have : addPairs adj (([] : List ((α × α) × Nat)).map Prod.fst) = adj := by
      funext x y; simp [addPairs]
    rw [this]; exact h
  | ((p, q), k) :: l, adj, M, h, hpx, hf => by
    rw [List.length_cons, Nat.mul_add, Nat.mul_add, Nat.mul_one] at hf
    obtain ⟨hp, hq⟩ := hpx ((p, q), k) (by simp)
    obtain ⟨M1, h1, h2, h3⟩ := joinAt_vgood hL hP h hp hq (fuel := fuel) (steps := steps) (split := k) (by omega) hn
    obtain ⟨M2, h4, h5, h6⟩ := joinAll_vgood hL hP (fuel := fuel) hn l h2
      (fun e he => hpx e (List.mem_cons_of_mem _ he)) (by rw [Nat.mul_add, Nat.mul_one]; omega)
    refine ⟨M2, ?_, ?_, by rw [List.length_cons, Nat.mul_add, Nat.mul_one]; omega⟩
    · simp only [List.map_cons, joinAll, h1]; exact h4
    · have : addPairs adj ((((p, q), k) :: l).map Prod.fst) = addPairs (addPair adj p q) (l.map Prod.fst) := by
        rw [List.map_cons]
        funext x y
        simp only [addPairs, addPair, List.mem_cons, Prod.mk.injEq, eq_iff_iff]
        constructor
        · rintro (e | (e | e) | (⟨e1, e2⟩ | e))
          · exact .inl (.inl e)
          · exact .inl (.inr (.inl e))
          · exact .inr (.inl e)
          · exact .inl (.inr (.inr ⟨e2, e1⟩))
          · exact .inr (.inr e)
        · rintro ((e | e | ⟨e1, e2⟩) | e | e)
          · exact .inl e
          · exact .inr (.inl (.inl e))
          · exact .inr (.inr (.inl ⟨e2, e1⟩))
          · exact .inr (.inl (.inr e))
          · exact .inr (.inr (.inr e))
      rw [this]; exact h5
end

end Verif.V1
