import Verif.Proof.ConnectV1

/-!
# Fast MSER V1: one iteration and the whole loop of `connect`
-/

namespace Verif.V1

open Function (update)
open Relation (ReflTransGen)
open Verif.Spec (Linked LConn)
open Verif.Connect (Forest chase Up UpO RealPar Str up_total up_away up_through up_to Ctx LInv CSt ConnOk SizeOk edge pend
  setParent addSize Compressed val upO_some chase_res lconn_of_edges edge_congr no_pend)

variable {ι : Type} [DecidableEq ι] {α : Type}

section
variable {C : Ctx ι α} {D : Nat → Prop} {own : Nat → ι} {c : VSt ι} {fuel split : Nat}

omit [DecidableEq ι] in
/-- Going up when there is no partner. -/
theorem advance_none (hC : ¬ C.track) {F : Forest ι} {s x : ι} {pix m : Nat} (h : LInv C ⟨F, some s, none, pix, m⟩)
    (hx : C.isReg x ∧ (F x).merged = false) : LInv C ⟨F, some x, none, pix, m⟩ := by
  refine ⟨h.str, ⟨x, rfl, hx.1, hx.2⟩, by simp, .inr (by simp), ?_, fun ht => absurd ht hC⟩
  intro l p hp q hq hpl hql
  have := h.conn l p hp q hq hpl hql
  rw [this]
  have e : pend (some s) (none : Option ι) = pend (some x) none := by
    funext u v; simp [pend]
  dsimp only; rw [e]

omit [DecidableEq ι] in
/-- `smaller` meets `bigger`. -/
theorem meet_inv (hC : ¬ C.track) {F : Forest ι} {x : ι} {pix m : Nat} (h : LInv C ⟨F, some x, some x, pix, m⟩) :
    LInv C ⟨F, some x, none, pix, m⟩ := by
  refine ⟨h.str, h.s_ok, by simp, .inr (by simp), ?_, fun ht => absurd ht hC⟩
  intro l p hp q hq hpl hql
  rw [h.conn l p hp q hq hpl hql]
  dsimp only
  rw [no_pend (P := pend (some x) (some x)) (by rintro u v (⟨e1, e2⟩ | ⟨e1, e2⟩) <;>
    (obtain rfl := Option.some.inj e1; obtain rfl := Option.some.inj e2; rfl)),
    no_pend (P := pend (some x) none) (by rintro u v (⟨e1, e2⟩ | ⟨e1, e2⟩) <;> simp at e2)]

/-- What one iteration may use up. -/
structure Costs (C : Ctx ι α) (c c' : VSt ι) : Prop where
  merges : c.M.merges ≤ c'.M.merges ∧ c'.M.merges ≤ c.M.merges + 1
  mp : c'.M.mp.length ≤ c.M.mp.length + 2

/-- Climbing to the parent `x` of the region `s` that is cut off. -/
theorem climb_spec (hC : ¬ C.track) {s x : ι} {L : ι → List Nat} {ds : List (Option ι × Int)}
    (h : Phase2 split C D own c s L ds) (hps : (c.M.regs s).parent = some x)
    (hx : C.isReg x ∧ (c.M.forest x).merged = false ∧ C.gr s < C.gr x)
    (hb : ∀ b, c.bigger = some b → C.gr x ≤ C.gr b) (hf : c.M.merges ≤ fuel) (hmp : c.M.mp.length ≤ fuel) :
    ∃ c' L' ds', climb fuel split c s (some x) = some c' ∧ c'.smaller = some x ∧ c'.bigger = c.bigger ∧
      Phase2 split C D own (meet c') x L' ds' ∧ Costs C c c' := by
  obtain ⟨hxr, hxl, hsx⟩ := hx
  have hs0 : Str C.isReg C.gr c.M.forest c.M.merges := h.tree.str
  obtain ⟨_, e0, hsr, hsl0⟩ := h.tree.s_ok
  obtain rfl := Option.some.inj e0
  dsimp only at hsl0
  have hsx' : s ≠ x := by rintro rfl; omega
  obtain ⟨M1, o, _, hch, hst⟩ := stored (fuel := fuel) hs0 hf hxr hxl
  have hcomp := hst.comp
  have hinv1 := hst.inv h.tree
  have hL1 := hst.ls h.lists
  have hs1 : Str C.isReg C.gr M1.forest M1.merges := hinv1.str
  have hol : ∀ y, o = some y → C.isReg y ∧ (M1.forest y).merged = false ∧ C.gr x < C.gr y := by
    intro y hy; rw [hcomp.merged]; exact hcomp.sp_ok y hy
  have hdis : disconnect fuel c.M x = disconnect fuel M1 x := by
    rw [hst.eq]
    refine disconnect_parent hch (fun y hy => (hcomp.sp_ok y hy).2.1) ?_
    intro k; have := (hcomp.sp_ok x k).2.2; omega
  have hxl1 : (M1.forest x).merged = false := by rw [hcomp.merged]; exact hxl
  have hsl1 : (M1.forest s).merged = false := by rw [hcomp.merged]; exact hsl0
  have hps1 : (M1.forest s).parent = some x := by
    show (M1.regs s).parent = _; rw [hst.parent hsx']; exact hps
  have hpx1 : (M1.regs x).parent = o := hcomp.par
  have hxs1 : ¬ Up M1.forest x s := fun k => by have := (hs1.up hxr k).2; omega
  have hpos : ∀ e ∈ ds, e.1 = none ∨ e.1 = some x ∨ e.1 = c.bigger := by
    intro e he
    rcases h.pos e he with k | k | k
    · exact .inl k
    · exact .inr (.inl (realPar_det (F := c.M.forest) (by
        intro y hy; obtain rfl := Option.some.inj hy; exact hxl) hps k))
    · exact .inr (.inr k)
  have hbig : ∀ b, c.bigger = some b → C.isReg b ∧ (M1.forest b).merged = false ∧ b ≠ s ∧ C.gr s ≤ C.gr b := by
    intro b hbb
    have k := hinv1.b_ok b hbb
    refine ⟨k.1, k.2, fun e => h.ne (by rw [hbb, e]), ?_⟩
    have := hb b hbb; omega
  obtain ⟨M2, b1, b2, b3, b4, b5, _, b7⟩ := hL1.detach hs1 hxr hxl1
    (by rintro ⟨X, hX, k⟩; obtain rfl : X = s := by simpa using hX
        exact hxs1 k)
    hpx1 (realPar_of (F := M1.forest) (fun y hy => (hol y hy).2.1) hpx1)
    (fun y hy => (hol y hy).2.1)
    (by
      intro e he k
      rcases hpos e he with k' | k' | k'
      · rw [k'] at k; obtain ⟨y, hy, _⟩ := k; simp at hy
      · exact k'
      · obtain ⟨y, hy, hyx⟩ := k
        have hby := hy
        rw [k'] at hby
        by_cases e' : y = x
        · rw [hy, e']
        · exfalso
          obtain ⟨q1, q2, q3, q4⟩ := hbig y hby
          have := hs1.up_lt q1 q2 hyx e'
          have := hb y hby
          omega)
    (fuel := fuel) (by rw [hst.lists.mp]; exact hmp)
  have hL2x : cutL M1.forest [s] x L x = L x := cutL_in (.inr .refl)
  have hL2s : cutL M1.forest [s] x L s = L s := cutL_in (.inl ⟨s, by simp, .refl⟩)
  generalize hM3 : append M2 x s = M3
  have h3 : ∀ q, (M3.regs q).gray = (M2.regs q).gray ∧ (M3.regs q).parent = (M2.regs q).parent ∧
      (M3.regs q).merged = (M2.regs q).merged ∧ (M3.regs q).patch = (M2.regs q).patch := by
    intro q; rw [← hM3]; unfold append; dsimp only
    by_cases e : q = x
    · subst e; simp
    · rw [Function.update_of_ne e]; exact ⟨rfl, rfl, rfl, rfl⟩
  have hgr3 : ∀ q, (M3.forest q).gray = (M1.forest q).gray := fun q => ((h3 q).1.trans (b2.gray q))
  have hpar3 : ∀ q, (M3.forest q).parent = (M1.forest q).parent := fun q => ((h3 q).2.1.trans (b2.parent q))
  have hmer3 : ∀ q, (M3.forest q).merged = (M1.forest q).merged := fun q => ((h3 q).2.2.1.trans (b2.merged q))
  have hpat3 : ∀ q, (M3.regs q).patch = (c.M.regs q).patch := fun q =>
    ((h3 q).2.2.2.trans ((b2.patch q).trans (hst.patch q)))
  have hmrg : M3.merges = c.M.merges := by
    have e1 : M3.merges = M2.merges := by rw [← hM3]; rfl
    rw [e1, b2.merges, hst.merges]
  have hatt := LS.attach (F' := M3.forest) hs1 b4 hxs1 (.inl hps1) (fun q _ => hpar3 q) (by rw [hpar3]; exact hps1)
    (fun q _ => hmer3 q) (by intro q hq; simpa using hq) (by rw [hL2x]; exact b5) (by
      rw [hL2x, hL2s]
      refine b7.mono (fun a => ⟨rfl, rfl⟩) (fun a ha => ha) ?_
      rintro a (ha | ⟨X, hX, ha⟩)
      · exact .inl ha
      · obtain rfl : X = s := by simpa using hX
        exact .inr ha) (by
      intro e he y hy k
      rcases List.mem_cons.1 he with rfl | he
      · have := (hs1.up (hol y hy).1 k).2
        have := (hol y hy).2.2
        omega
      · obtain ⟨he1, he2⟩ := mem_drop.1 he
        rcases hpos e he1 with k' | k' | k'
        · rw [k'] at hy; simp at hy
        · exact he2 k'
        · rw [k'] at hy
          obtain ⟨q1, q2, q3, q4⟩ := hbig y hy
          have := hs1.up_lt q1 q2 k q3
          omega)
  rw [hM3] at hatt
  have hup3 : Up M3.forest = Up c.M.forest ∨ True := .inr trivial
  have hbelow : ∀ k y, c.lb k = some y → Up M3.forest y x := by
    intro k y hy
    have h1 := h.below k y hy
    have h2 : Up M1.forest y s := (hcomp.up y s hsl0).2 h1
    rw [Connect.up_congr hpar3]
    exact h2.tail hps1
  have hslot : slot split M2 x = slot split M3 x :=
    slot_congr (M := M3) (M' := M2) (fun q => ((h3 q).2.2.2).symm) x
  have hrp3 : RealPar M3.forest x o := by
    refine realPar_of ?_ (by rw [hpar3]; exact hpx1)
    intro y hy; rw [hmer3]; exact (hol y hy).2.1
  have hclimb : climb fuel split c s (some x) = some { c with
      M := M3, smaller := some x, lb := update c.lb (slot split M2 x) (some x), changed := true } := by
    unfold climb; dsimp only
    rw [if_pos h.lb, hdis, b1]
    dsimp only
    rw [hM3]
  have hlb' : ∀ k y, update c.lb (slot split M2 x) (some x) k = some y → Up M3.forest y x := by
    intro k y hy
    by_cases e : k = slot split M2 x
    · rw [e, Function.update_self] at hy
      obtain rfl := Option.some.inj hy; exact .refl
    · rw [Function.update_of_ne e] at hy
      exact hbelow k y hy
  refine ⟨_, update (cutL M1.forest [s] x L) x (cutL M1.forest [s] x L x ++ cutL M1.forest [s] x L s),
    (o, (M1.regs x).unmerged) :: drop ds x, hclimb, rfl, rfl, ?_, ⟨⟨by dsimp only; omega, by dsimp only; omega⟩, ?_⟩⟩
  · -- the invariant after climbing
    have hinv3 : LInv C ⟨M3.forest, some x, c.bigger, 1, M3.merges⟩ := by
      rw [hmrg, ← hst.merges]
      cases hbb : c.bigger with
      | none =>
        have hinv1' := hinv1
        rw [hbb] at hinv1'
        exact retag (pix' := 1) hC (advance_none hC hinv1' ⟨hxr, hxl1⟩) hgr3 hmer3 hpar3 (.inr (by simp))
      | some b =>
        have hinv1' := hinv1
        rw [hbb] at hinv1'
        obtain ⟨q1, q2, q3, q4⟩ := hbig b hbb
        have hadv := Connect.advance hinv1' (Ne.symm q3) q4 hps1 ⟨hxr, hxl1, hsx⟩ (hb b hbb)
        refine retag (pix' := 1) hC hadv ?_ ?_ ?_ (.inr ?_)
        · intro r; rw [hgr3]; unfold addSize
          by_cases e : r = s
          · subst e; simp
          · simp [Function.update_of_ne e]
        · intro r; rw [hmer3]; unfold addSize
          by_cases e : r = s
          · subst e; simp
          · simp [Function.update_of_ne e]
        · intro r; rw [hpar3]; unfold addSize
          by_cases e : r = s
          · subst e; simp
          · simp [Function.update_of_ne e]
        · intro s' b' e1 e2
          obtain rfl := Option.some.inj e1
          obtain rfl := Option.some.inj e2
          exact hb b hbb
    have hpos' : ∀ e ∈ (o, (M1.regs x).unmerged) :: drop ds x, e.1 = none ∨ RealPar M3.forest x e.1 ∨
        (e.1 = c.bigger ∧ e.1 ≠ some x) := by
      intro e he
      rcases List.mem_cons.1 he with rfl | he
      · exact .inr (.inl hrp3)
      · obtain ⟨he1, he2⟩ := mem_drop.1 he
        rcases hpos e he1 with k' | k' | k'
        · exact .inl k'
        · exact absurd k' he2
        · exact .inr (.inr ⟨k', he2⟩)
    by_cases hm : c.bigger = some x
    · have hmeet : meet ({ c with M := M3, smaller := some x, lb := update c.lb (slot split M2 x) (some x), changed := true } : VSt ι)
          = ⟨M3, some x, none, update c.lb (slot split M2 x) (some x), true⟩ := by
        unfold meet; dsimp only; rw [if_pos hm.symm]
      rw [hmeet]
      rw [hm] at hinv3
      refine ⟨rfl, by simp, rfl, ?_, hlb', meet_inv hC hinv3, hatt, ?_⟩
      · dsimp only; rw [← hslot, Function.update_self]
      · intro e he
        rcases hpos' e he with k | k | ⟨k1, k2⟩
        · exact .inl k
        · exact .inr (.inl k)
        · exact absurd (k1.trans hm) k2
    · have hmeet : meet ({ c with M := M3, smaller := some x, lb := update c.lb (slot split M2 x) (some x), changed := true } : VSt ι)
          = { c with M := M3, smaller := some x, lb := update c.lb (slot split M2 x) (some x), changed := true } := by
        unfold meet; dsimp only; rw [if_neg (fun k => hm k.symm)]
      rw [hmeet]
      refine ⟨rfl, hm, rfl, ?_, hlb', hinv3, hatt, ?_⟩
      · dsimp only; rw [← hslot, Function.update_self]
      · intro e he
        rcases hpos' e he with k | k | ⟨k1, k2⟩
        · exact .inl k
        · exact .inr (.inl k)
        · exact .inr (.inr k1)
  · dsimp only
    have : M3.mp = M2.mp := by rw [← hM3]; rfl
    rw [this]
    rw [hst.lists.mp] at b3; omega

omit [DecidableEq ι] in
theorem res_unique {F : Forest ι} : ∀ {k k' : Nat} {r x x' : ι}, Connect.Res F k r x → Connect.Res F k' r x' → x = x'
  | 0, 0, _, _, _, ⟨_, h1⟩, ⟨_, h2⟩ => by rw [← h1, ← h2]
  | 0, _ + 1, _, _, _, ⟨h1, _⟩, ⟨h2, _⟩ => by rw [h1] at h2; simp at h2
  | _ + 1, 0, _, _, _, ⟨h1, _⟩, ⟨h2, _⟩ => by rw [h1] at h2; simp at h2
  | _ + 1, _ + 1, _, _, _, ⟨_, y, h1, h2⟩, ⟨_, y', h1', h2'⟩ => by
    rw [h1] at h1'; obtain rfl := Option.some.inj h1'
    exact res_unique h2 h2'

omit [DecidableEq ι] in
theorem realPar_unique {F : Forest ι} {s : ι} {o o' : Option ι} (h : RealPar F s o) (h' : RealPar F s o') : o = o' := by
  cases h with
  | none h =>
    cases h' with
    | none => rfl
    | some y x k h1 _ => rw [h] at h1; simp at h1
  | some y x k h hr =>
    cases h' with
    | none h1 => rw [h] at h1; simp at h1
    | some y' x' k' h1 hr' =>
      rw [h] at h1; obtain rfl := Option.some.inj h1
      rw [res_unique hr hr']

/-- The stored value is the real parent. -/
theorem stored_real {M : Mem ι} (hs : Str C.isReg C.gr M.forest M.merges) (hf : M.merges ≤ fuel) {s : ι} (hsr : C.isReg s)
    {sp : Option ι} (hch : chase M.forest fuel (M.regs s).parent = some sp) : RealPar M.forest s sp := by
  obtain ⟨sp', hch', hrp⟩ := hs.chase_parent hf hsr
  have : chase M.forest fuel (M.regs s).parent = some sp' := hch'
  rw [this] at hch
  obtain rfl := Option.some.inj hch
  exact hrp

/-- Storing a real parent keeps the invariant of the second phase. -/
theorem Phase2.store {s r : ι} {L : ι → List Nat} {ds : List (Option ι × Int)} (h : Phase2 split C D own c s L ds)
    {M1 : Mem ι} {o sp : Option ι} (hst : Stored C c.M M1 r o) (hpos : ∀ e ∈ ds, e.1 = none ∨ e.1 = sp ∨ e.1 = c.bigger)
    (hpar : (M1.regs s).parent = sp) (hsp : ∀ x, sp = some x → (M1.forest x).merged = false) :
    Phase2 split C D own { c with M := M1 } s L ds := by
  obtain ⟨_, e0, hsr, hsl0⟩ := h.tree.s_ok
  obtain rfl := Option.some.inj e0
  dsimp only at hsl0
  refine ⟨h.smaller, h.ne, h.changed, ?_, ?_, hst.inv h.tree, hst.ls h.lists, ?_⟩
  · dsimp only; rw [slot_congr hst.patch]; exact h.lb
  · intro k y hy
    exact (hst.comp.up y s hsl0).2 (h.below k y hy)
  · intro e he
    rcases hpos e he with k | k | k
    · exact .inl k
    · right; left; rw [k]; exact realPar_of (F := M1.forest) hsp hpar
    · exact .inr (.inr k)

/-- What holds between two iterations. -/
def Inv3 (split : Nat) (C : Ctx ι α) (D : Nat → Prop) (own : Nat → ι) (c : VSt ι) : Prop :=
  (∃ s b L, Phase1 C D own c s b L) ∨ (∃ s L ds, Phase2 split C D own c s L ds) ∨
    (c.smaller = none ∧ c.bigger = none ∧ ∃ Xs L ds, Phase3 C D own c.M Xs L ds)

/-- What one iteration achieves. -/
def StepOk (split : Nat) (C : Ctx ι α) (D : Nat → Prop) (own : Nat → ι) (c : VSt ι) (v : Nat) (r : VRes ι) : Prop :=
  (∃ c', r = .next c' ∧ Inv3 split C D own c' ∧ Costs C c c' ∧ v < val C c'.smaller + val C c'.bigger) ∨
  (∃ c', r = .stop c' ∧ (∃ Xs L ds, Phase3 C D own c'.M Xs L ds) ∧ Costs C c c')

omit [DecidableEq ι] in
theorem conn_none {F : Forest ι} {s b : Option ι} (h : ConnOk C F s b) (hp : ∀ x y, pend s b x y → edge F x y) :
    ConnOk C F none none := by
  intro l p hp' q hq hpl hql
  rw [h l p hp' q hq hpl hql]
  constructor
  · refine lconn_of_edges ?_
    rintro u v (e | e)
    · exact LConn.edge (.inl e) (by omega) (by omega)
    · exact LConn.edge (.inl (hp u v e)) (by omega) (by omega)
  · refine lconn_of_edges ?_
    rintro u v (e | e)
    · exact LConn.edge (.inl e) (by omega) (by omega)
    · rcases e with ⟨e, _⟩ | ⟨e, _⟩ <;> simp at e

theorem meet_id {c : VSt ι} (h : c.smaller ≠ c.bigger) : meet c = c := by
  unfold meet; rw [if_neg h]

/-- One iteration while nothing is cut off. -/
theorem body1 (hC : ¬ C.track) {s b : ι} {L : ι → List Nat}
    (hinv : LInv C ⟨c.M.forest, some s, some b, 0, c.M.merges⟩) (hne : s ≠ b) (hle : C.gr s ≤ C.gr b)
    (hch : c.changed = false) (hlb : ∀ k, c.lb k = none)
    (hL : LS D own C.isReg c.M.forest c.M L [] [] (fun _ => False)) (hf : c.M.merges ≤ fuel) (hmp : c.M.mp.length + 1 ≤ fuel) :
    StepOk split C D own c (C.gr s + C.gr b) (connectBody fuel split c s (some b)) := by
  have hs0 : Str C.isReg C.gr c.M.forest c.M.merges := hinv.str
  obtain ⟨_, e0, hsr, hsl0⟩ := hinv.s_ok
  obtain rfl := Option.some.inj e0
  obtain ⟨hbr, hbl0⟩ := hinv.b_ok b rfl
  dsimp only at hsl0 hbl0
  have hb256 : C.gr b < 256 := hs0.gray_lt b hbr
  have hs256 : C.gr s < 256 := hs0.gray_lt s hsr
  obtain ⟨M1, sp, g1, hch1, hst1⟩ := stored (fuel := fuel) hs0 hf hsr hsl0
  have hinv1 := hst1.inv hinv
  have hL1 := hst1.ls hL
  have hs1 : Str C.isReg C.gr M1.forest M1.merges := hinv1.str
  have hp1 : (M1.regs s).parent = sp := hst1.comp.par
  have hbl1 : (M1.forest b).merged = false := by rw [hst1.comp.merged]; exact hbl0
  unfold connectBody
  rw [g1]
  dsimp only
  by_cases hsb : sp = some b
  · rw [if_pos ⟨hsb, hch⟩]
    refine .inr ⟨_, rfl, ⟨[], L, [], hs1, ?_, hL1, by simp, by simp⟩, ⟨⟨?_, ?_⟩, ?_⟩⟩
    · refine conn_none hinv1.conn ?_
      rintro x y (⟨e1, e2⟩ | ⟨e1, e2⟩)
      · obtain rfl := Option.some.inj e1; obtain rfl := Option.some.inj e2
        exact .inl (hp1.trans hsb)
      · obtain rfl := Option.some.inj e1; obtain rfl := Option.some.inj e2
        exact .inr (hp1.trans hsb)
    · dsimp only; rw [hst1.merges]
    · dsimp only; rw [hst1.merges]; omega
    · dsimp only; rw [hst1.lists.mp]; omega
  · rw [if_neg (fun k => hsb k.1)]
    obtain ⟨M2, bp, g2, hch2, hst2⟩ := stored (fuel := fuel) hs1 (by rw [hst1.merges]; exact hf) hbr hbl1
    have hinv2 := hst2.inv hinv1
    have hL2 := hst2.ls hL1
    have hs2 : Str C.isReg C.gr M2.forest M2.merges := hinv2.str
    have hp2 : (M2.regs s).parent = sp := by rw [hst2.parent hne]; exact hp1
    have hb2 : (M2.regs b).parent = bp := hst2.comp.par
    have hmer : M2.merges = c.M.merges := by rw [hst2.merges, hst1.merges]
    have hmpe : M2.mp = c.M.mp := by rw [hst2.lists.mp, hst1.lists.mp]
    have hspo : ∀ x, sp = some x → C.isReg x ∧ (M2.forest x).merged = false ∧ C.gr s < C.gr x := by
      intro x hx; rw [hst2.comp.merged, hst1.comp.merged]; exact hst1.comp.sp_ok x hx
    have hbpo : ∀ x, bp = some x → C.isReg x ∧ (M2.forest x).merged = false ∧ C.gr b < C.gr x := by
      intro x hx; rw [hst2.comp.merged]; exact hst2.comp.sp_ok x hx
    have hgray : ∀ r, (M2.regs r).gray = C.gr r := hs2.gray
    rw [g2]
    dsimp only
    simp only [hgray]
    -- linking
    have hlink : (∀ x, sp = some x → C.gr b < C.gr x) → ∀ m, m = decide (C.gr s = C.gr b) →
        ∃ c', linkTo fuel split { c with M := M2, smaller := some s, bigger := some b } s b sp m = some c' ∧
          Inv3 split C D own (meet c') ∧ Costs C c (meet c') ∧ C.gr s + C.gr b < val C (meet c').smaller + val C (meet c').bigger := by
      intro hord m hm
      obtain ⟨c', L', ds', k1, k2, k3, k4, k5, k6⟩ := linkTo_spec (split := split)
        (c := { c with M := M2, smaller := some s, bigger := some b })
        (fuel := fuel) hC hinv2 hne hle hp2 hb2 hspo hbpo hord hm (.inl ⟨hlb, L, hL2⟩) (by dsimp only; rw [hmpe]; exact hmp)
      dsimp only at k4 k5 k6
      rw [hmer] at k4 k5
      rw [hmpe] at k6
      have hid : meet c' = c' := meet_id (by rw [k2.smaller]; exact fun k => k2.ne k.symm)
      refine ⟨c', k1, ?_, ?_, ?_⟩
      · rw [hid]; exact .inr (.inl ⟨b, L', ds', k2⟩)
      · rw [hid]; exact ⟨⟨k4, k5⟩, k6⟩
      · rw [hid, k2.smaller, k3]
        cases sp with
        | none => simp only [val]; omega
        | some x => have := (hspo x rfl).2.2; simp only [val]; omega
    by_cases heq : C.gr s = C.gr b
    · rw [if_pos heq]
      obtain ⟨c', k1, k2, k3, k4⟩ := hlink (by intro x hx; have := (hspo x hx).2.2; omega) true (by simp [heq])
      rw [k1]
      exact .inl ⟨_, rfl, k2, k3, k4⟩
    · rw [if_neg heq]
      cases sp with
      | none =>
        dsimp only
        obtain ⟨c', k1, k2, k3, k4⟩ := hlink (by simp) false (by simp [heq])
        rw [k1]
        exact .inl ⟨_, rfl, k2, k3, k4⟩
      | some x =>
        dsimp only
        by_cases hlt : C.gr b < C.gr x
        · rw [if_pos hlt]
          obtain ⟨c', k1, k2, k3, k4⟩ := hlink (by rintro y hy; obtain rfl := Option.some.inj hy; exact hlt) false (by simp [heq])
          rw [k1]
          exact .inl ⟨_, rfl, k2, k3, k4⟩
        · rw [if_neg hlt]
          have hcl : climb fuel split { c with M := M2, smaller := some s, bigger := some b } s (some x) =
              some { c with M := M2, smaller := some x, bigger := some b } := by
            unfold climb; dsimp only; rw [hlb, if_neg (by simp)]
          rw [hcl]
          dsimp only
          have hxb : x ≠ b := by rintro rfl; exact hsb rfl
          rw [meet_id (by dsimp only; intro k; exact hxb (Option.some.inj k))]
          have hxo := hspo x rfl
          have hadv := Connect.advance hinv2 hne hle hp2 hxo (by omega)
          have hF : addSize M2.forest s 0 = M2.forest := by
            funext r; unfold addSize
            by_cases e : r = s
            · subst e; simp
            · rw [Function.update_of_ne e]
          rw [hF] at hadv
          refine .inl ⟨_, rfl, .inl ⟨x, b, L, rfl, rfl, hxb, hch, hlb, hadv, hL2⟩, ⟨⟨?_, ?_⟩, ?_⟩, ?_⟩
          · dsimp only; omega
          · dsimp only; omega
          · dsimp only; rw [hmpe]; omega
          · have := hxo.2.2; simp only [val]; omega

/-- One iteration while `s` is cut off. -/
theorem body2 (hC : ¬ C.track) {s : ι} {L : ι → List Nat} {ds : List (Option ι × Int)}
    (h : Phase2 split C D own c s L ds) (hf : c.M.merges ≤ fuel) (hmp : c.M.mp.length + 1 ≤ fuel) :
    StepOk split C D own c (C.gr s + val C c.bigger) (connectBody fuel split c s c.bigger) := by
  have hs0 : Str C.isReg C.gr c.M.forest c.M.merges := h.tree.str
  obtain ⟨_, e0, hsr, hsl0⟩ := h.tree.s_ok
  obtain rfl := Option.some.inj e0
  dsimp only at hsl0
  have hs256 : C.gr s < 256 := hs0.gray_lt s hsr
  obtain ⟨M1, sp, g1, hch1, hst1⟩ := stored (fuel := fuel) hs0 hf hsr hsl0
  have hrp := stored_real hs0 hf hsr hch1
  have hpos : ∀ e ∈ ds, e.1 = none ∨ e.1 = sp ∨ e.1 = c.bigger := by
    intro e he
    rcases h.pos e he with k | k | k
    · exact .inl k
    · exact .inr (.inl (realPar_unique k hrp))
    · exact .inr (.inr k)
  have hp1 : (M1.regs s).parent = sp := hst1.comp.par
  have hspo1 : ∀ x, sp = some x → C.isReg x ∧ (M1.forest x).merged = false ∧ C.gr s < C.gr x := by
    intro x hx; rw [hst1.comp.merged]; exact hst1.comp.sp_ok x hx
  have h1 := h.store hst1 hpos hp1 (fun x hx => (hspo1 x hx).2.1)
  have hs1 : Str C.isReg C.gr M1.forest M1.merges := h1.tree.str
  have hceq : ∀ M : Mem ι, ({ c with M := M, smaller := some s, bigger := c.bigger } : VSt ι) = { c with M := M } := by
    intro M; rw [← h.smaller]
  unfold connectBody
  rw [g1]
  dsimp only
  rw [if_neg (by rw [h.changed]; simp)]
  cases hbg : c.bigger with
  | none =>
    dsimp only
    have hce := hceq M1
    conv at hce =>
      lhs
      rw [hbg]
    rw [hce]
    cases sp with
    | none =>
      refine .inl ⟨_, rfl, .inr (.inr ⟨rfl, hbg, [s], L, ds, hs1, ?_, h1.lists, ?_, ?_⟩), ⟨⟨?_, ?_⟩, ?_⟩, ?_⟩
      · refine conn_none h1.tree.conn ?_
        dsimp only; rw [hbg]
        rintro x y (⟨_, e⟩ | ⟨_, e⟩) <;> simp at e
      · intro X hX q _ _ hu
        obtain rfl : X = s := by simpa using hX
        rcases Relation.ReflTransGen.cases_head hu with k | ⟨y, k, _⟩
        · exact k.symm
        · have k' : (M1.regs X).parent = some y := k
          rw [hp1] at k'; simp at k'
      · intro e he
        rcases hpos e he with k | k | k
        · exact k
        · exact k
        · rw [k, hbg]
      · dsimp only; rw [hst1.merges]
      · dsimp only; rw [hst1.merges]; omega
      · dsimp only; rw [hst1.lists.mp]; omega
      · dsimp only; rw [hbg]; simp only [val]; omega
    | some x =>
      obtain ⟨c', L', ds', k1, k2, k3, k4, k5⟩ := climb_spec (fuel := fuel) hC h1 hp1 (hspo1 x rfl) (by simp [hbg])
        (by dsimp only; rw [hst1.merges]; exact hf) (by dsimp only; rw [hst1.lists.mp]; omega)
      dsimp only at k3
      rw [hbg] at k3
      rw [k1]
      rw [meet_id (by rw [k2, k3]; simp)] at k4
      refine .inl ⟨c', rfl, .inr (.inl ⟨x, L', ds', k4⟩), ⟨?_, ?_⟩, ?_⟩
      · have := k5.merges; dsimp only at this; rw [hst1.merges] at this; exact this
      · have := k5.mp; dsimp only at this; rw [hst1.lists.mp] at this; exact this
      · have := (hspo1 x rfl).2.2
        rw [k2, k3]; simp only [val]; omega
  | some b =>
    dsimp only
    have hb0 := h.tree.b_ok b hbg
    dsimp only at hb0
    obtain ⟨hbr, hbl0⟩ := hb0
    have hb256 : C.gr b < 256 := hs0.gray_lt b hbr
    have hne : s ≠ b := by rintro rfl; exact h.ne hbg
    have hle : C.gr s ≤ C.gr b := by
      rcases h.tree.ord with k | k
      · simp at k
      · exact k s b rfl hbg
    have hbl1 : (M1.forest b).merged = false := by rw [hst1.comp.merged]; exact hbl0
    obtain ⟨M2, bp, g2, hch2, hst2⟩ := stored (fuel := fuel) hs1 (by rw [hst1.merges]; exact hf) hbr hbl1
    have hp2 : (M2.regs s).parent = sp := by rw [hst2.parent hne]; exact hp1
    have hb2 : (M2.regs b).parent = bp := hst2.comp.par
    have hmer : M2.merges = c.M.merges := by rw [hst2.merges, hst1.merges]
    have hmpe : M2.mp = c.M.mp := by rw [hst2.lists.mp, hst1.lists.mp]
    have hspo : ∀ x, sp = some x → C.isReg x ∧ (M2.forest x).merged = false ∧ C.gr s < C.gr x := by
      intro x hx; rw [hst2.comp.merged]; exact hspo1 x hx
    have hbpo : ∀ x, bp = some x → C.isReg x ∧ (M2.forest x).merged = false ∧ C.gr b < C.gr x := by
      intro x hx; rw [hst2.comp.merged]; exact hst2.comp.sp_ok x hx
    have h2 := h1.store hst2 (sp := sp) hpos hp2 (fun x hx => (hspo x hx).2.1)
    dsimp only at h2
    have hs2 : Str C.isReg C.gr M2.forest M2.merges := h2.tree.str
    have hgray : ∀ r, (M2.regs r).gray = C.gr r := hs2.gray
    rw [g2]
    dsimp only
    simp only [hgray]
    have hce := hceq M2
    conv at hce =>
      lhs
      rw [hbg]
    rw [hce]
    have hinv2 := h2.tree
    dsimp only at hinv2
    rw [hbg] at hinv2
    have hlink : (∀ x, sp = some x → C.gr b < C.gr x) → ∀ m, m = decide (C.gr s = C.gr b) →
        ∃ c', linkTo fuel split { c with M := M2 } s b sp m = some c' ∧
          Inv3 split C D own (meet c') ∧ Costs C c (meet c') ∧ C.gr s + C.gr b < val C (meet c').smaller + val C (meet c').bigger := by
      intro hord m hm
      obtain ⟨c', L', ds', k1, k2, k3, k4, k5, k6⟩ := linkTo_spec (split := split) (c := { c with M := M2 })
        (fuel := fuel) hC hinv2 hne hle hp2 hb2 hspo hbpo hord hm
        (.inr ⟨h2.lb, h2.below, L, ds, h2.lists, by rw [← hbg]; exact hpos⟩) (by dsimp only; rw [hmpe]; exact hmp)
      dsimp only at k4 k5 k6
      rw [hmer] at k4 k5
      rw [hmpe] at k6
      have hid : meet c' = c' := meet_id (by rw [k2.smaller]; exact fun k => k2.ne k.symm)
      refine ⟨c', k1, ?_, ?_, ?_⟩
      · rw [hid]; exact .inr (.inl ⟨b, L', ds', k2⟩)
      · rw [hid]; exact ⟨⟨k4, k5⟩, k6⟩
      · rw [hid, k2.smaller, k3]
        cases sp with
        | none => simp only [val]; omega
        | some x => have := (hspo x rfl).2.2; simp only [val]; omega
    show StepOk split C D own c (C.gr s + C.gr b) _
    by_cases heq : C.gr s = C.gr b
    · rw [if_pos heq]
      obtain ⟨c', k1, k2, k3, k4⟩ := hlink (by intro x hx; have := (hspo x hx).2.2; omega) true (by simp [heq])
      rw [k1]
      exact .inl ⟨_, rfl, k2, k3, k4⟩
    · rw [if_neg heq]
      cases sp with
      | none =>
        dsimp only
        obtain ⟨c', k1, k2, k3, k4⟩ := hlink (by simp) false (by simp [heq])
        rw [k1]
        exact .inl ⟨_, rfl, k2, k3, k4⟩
      | some x =>
        dsimp only
        by_cases hlt : C.gr b < C.gr x
        · rw [if_pos hlt]
          obtain ⟨c', k1, k2, k3, k4⟩ := hlink (by rintro y hy; obtain rfl := Option.some.inj hy; exact hlt) false (by simp [heq])
          rw [k1]
          exact .inl ⟨_, rfl, k2, k3, k4⟩
        · rw [if_neg hlt]
          obtain ⟨c', L', ds', k1, k2, k3, k4, k5⟩ := climb_spec (fuel := fuel) hC h2 hp2 (hspo x rfl)
            (by intro y hy; dsimp only at hy; rw [hbg] at hy; obtain rfl := Option.some.inj hy; omega)
            (by dsimp only; rw [hmer]; exact hf) (by dsimp only; rw [hmpe]; omega)
          rw [k1]
          have hx3 := (hspo x rfl).2.2
          have hxb : C.gr x < 256 := hs2.gray_lt x (hspo x rfl).1
          have hMeq : (meet c').M = c'.M := by unfold meet; split <;> rfl
          refine .inl ⟨_, rfl, .inr (.inl ⟨x, L', ds', k4⟩), ⟨?_, ?_⟩, ?_⟩
          · rw [hMeq]; have := k5.merges; dsimp only at this; rw [hmer] at this; exact this
          · rw [hMeq]; have := k5.mp; dsimp only at this; rw [hmpe] at this; exact this
          · rw [k4.smaller]
            dsimp only at k3
            unfold meet
            split
            · simp only [val]; omega
            · rw [k3, hbg]; simp only [val]; omega

/-- One iteration. -/
theorem connectStep_spec (hC : ¬ C.track) (h : Inv3 split C D own c) (hf : c.M.merges ≤ fuel) (hmp : c.M.mp.length + 1 ≤ fuel) :
    StepOk split C D own c (val C c.smaller + val C c.bigger) (connectStep fuel split c) := by
  rcases h with ⟨s, b, L, h⟩ | ⟨s, L, ds, h⟩ | ⟨h1, h2, h3⟩
  · unfold connectStep
    rw [h.smaller, h.bigger]
    dsimp only
    have hg : ∀ r, (c.M.regs r).gray = C.gr r := h.tree.str.gray
    rw [hg, hg]
    by_cases hlt : C.gr b < C.gr s
    · rw [if_pos hlt]
      obtain ⟨_, e0, hsr, hsl⟩ := h.tree.s_ok
      obtain rfl := Option.some.inj e0
      obtain ⟨hbr, hbl⟩ := h.tree.b_ok b rfl
      have h' : LInv C ⟨c.M.forest, some b, some s, 0, c.M.merges⟩ :=
        ⟨h.tree.str, ⟨b, rfl, hbr, hbl⟩, by
          intro x hx; obtain rfl := Option.some.inj hx; exact ⟨hsr, hsl⟩, .inl rfl, by
          have := h.tree.conn; unfold ConnOk at this ⊢; rw [Connect.pend_swap]; exact this, fun ht => absurd ht hC⟩
      have := body1 (split := split) hC h' (Ne.symm h.ne) hlt.le h.changed h.lb h.lists hf hmp
      simp only [val]
      rw [Nat.add_comm]; exact this
    · rw [if_neg hlt]
      exact body1 hC h.tree h.ne (by omega) h.changed h.lb h.lists hf hmp
  · have hb := body2 hC h hf hmp
    unfold connectStep
    rw [h.smaller]
    dsimp only
    cases hbg : c.bigger with
    | none => rw [hbg] at hb; exact hb
    | some b =>
      rw [hbg] at hb
      dsimp only
      have hg : ∀ r, (c.M.regs r).gray = C.gr r := h.tree.str.gray
      rw [hg, hg, if_neg ?_]
      · exact hb
      · rcases h.tree.ord with k | k
        · simp at k
        · have := k s b rfl hbg; omega
  · unfold connectStep
    rw [h1]
    exact .inr ⟨c, rfl, h3, ⟨⟨le_refl _, by omega⟩, by omega⟩⟩

theorem Inv3.val_le (h : Inv3 split C D own c) : val C c.smaller + val C c.bigger ≤ 512 := by
  rcases h with ⟨s, b, L, h⟩ | ⟨s, L, ds, h⟩ | ⟨h1, h2, _⟩
  · rw [h.smaller, h.bigger]
    obtain ⟨_, e0, hsr, hsl⟩ := h.tree.s_ok
    obtain rfl := Option.some.inj e0
    have h1 : C.gr s < 256 := h.tree.str.gray_lt s hsr
    have h2 : C.gr b < 256 := h.tree.str.gray_lt b (h.tree.b_ok b rfl).1
    simp only [val]; omega
  · rw [h.smaller]
    obtain ⟨_, e0, hsr, hsl⟩ := h.tree.s_ok
    obtain rfl := Option.some.inj e0
    have h1 : C.gr s < 256 := h.tree.str.gray_lt s hsr
    cases hb : c.bigger with
    | none => simp only [val]; omega
    | some b =>
      have h2 : C.gr b < 256 := h.tree.str.gray_lt b (h.tree.b_ok b hb).1
      simp only [val]; omega
  · rw [h1, h2]; simp [val]

/-- The loop ends, with nothing left to join. -/
theorem connectLoop_spec (hC : ¬ C.track) : ∀ (n : Nat) (c : VSt ι), Inv3 split C D own c → c.M.merges + n ≤ fuel →
    c.M.mp.length + 2 * n ≤ fuel → 513 ≤ val C c.smaller + val C c.bigger + n →
    ∃ c', connectLoop fuel split n c = some c' ∧ (∃ Xs L ds, Phase3 C D own c'.M Xs L ds) ∧
      c.M.merges ≤ c'.M.merges ∧ c'.M.merges ≤ c.M.merges + n
  | 0, c, h, _, _, hv => by have := h.val_le; omega
  | n + 1, c, h, hf, hmp, hv => by
    unfold connectLoop
    rcases connectStep_spec hC h (fuel := fuel) (by omega) (by omega) with ⟨c', h1, h2, h3, h4⟩ | ⟨c', h1, h2, h3⟩
    · rw [h1]
      have h5 := h3.merges; have h6 := h3.mp
      obtain ⟨c'', k1, k2, k3, k4⟩ := connectLoop_spec hC n c' h2 (by omega) (by omega) (by omega)
      exact ⟨c'', k1, k2, by omega, by omega⟩
    · rw [h1]
      have h5 := h3.merges
      exact ⟨c', rfl, h2, h5.1, by omega⟩
end

end Verif.V1
