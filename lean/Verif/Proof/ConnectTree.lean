import Verif.Proof.ConnectLoop
import Verif.Proof.Same

/-!
# Joining trees: from one join to component trees
-/

namespace Verif.Connect

open Function (update)
open Relation (ReflTransGen)
open Verif.Spec (LConn IsComponentTree RegionTree)

variable {ι : Type} [DecidableEq ι] {α : Type}

/-- Every region is the label of a pixel and has that pixel's gray. -/
structure Lab (C : Ctx ι α) : Prop where
  lab_reg : ∀ p ∈ C.px, C.isReg (C.lab p)
  lab_gray : ∀ p ∈ C.px, C.gr (C.lab p) = C.g p
  reg_lab : ∀ r, C.isReg r → ∃ p ∈ C.px, C.lab p = r
  track : C.track

/-- The context with another target connectivity. -/
def Ctx.on (C : Ctx ι α) (adj : α → α → Prop) : Ctx ι α := { C with tgt := LConn adj C.g }

omit [DecidableEq ι] in
/-- Lifting: connectivity of pixels and of the labelling regions agree as soon as edges do. -/
theorem conn_lift {C : Ctx ι α} (hL : Lab C) {adj : α → α → Prop} {E : ι → ι → Prop}
    (hpx : ∀ x y, adj x y → x ∈ C.px ∧ y ∈ C.px) (hEr : ∀ x y, C.isReg x → E x y → C.isReg y)
    (h1 : ∀ x y, adj x y → LConn E C.gr (max (C.g x) (C.g y)) (C.lab x) (C.lab y))
    (h0 : ∀ p ∈ C.px, ∀ q ∈ C.px, C.lab p = C.lab q → LConn adj C.g (C.g p) p q)
    (h2 : ∀ x y, C.isReg x → E x y → ∃ p ∈ C.px, ∃ q ∈ C.px, C.lab p = x ∧ C.lab q = y ∧
      LConn adj C.g (max (C.gr x) (C.gr y)) p q) :
    ∀ l, ∀ p ∈ C.px, ∀ q ∈ C.px, C.g p ≤ l → C.g q ≤ l →
      (LConn adj C.g l p q ↔ LConn E C.gr l (C.lab p) (C.lab q)) := by
  intro l p hp q hq hpl hql
  constructor
  · intro hc
    clear hq hql
    induction hc with
    | refl => exact .refl
    | tail _ h ih =>
      exact LConn.trans ih ((h1 _ _ h.1).mono (by omega))
  · intro hc
    have key : ∀ x, LConn E C.gr l (C.lab p) x → C.isReg x ∧ ∀ z ∈ C.px, C.lab z = x → LConn adj C.g l p z := by
      intro x hx
      induction hx with
      | refl =>
        refine ⟨hL.lab_reg p hp, fun z hz e => (h0 p hp z hz e.symm).mono hpl⟩
      | @tail x y _ hxy ih =>
        refine ⟨hEr x y ih.1 hxy.1, ?_⟩
        intro z hz e
        obtain ⟨a, ha, b, hb, ea, eb, hab⟩ := h2 x y ih.1 hxy.1
        have k1 := ih.2 a ha ea
        have k2 : LConn adj C.g l a b := hab.mono (by omega)
        have hgb : C.g b ≤ l := by rw [← hL.lab_gray b hb, eb]; exact hxy.2.2
        have k3 := (h0 b hb z hz (by rw [eb, e])).mono hgb
        exact (k1.trans k2).trans k3
    exact (key _ hc).2 q hq rfl

/-- The forest describes the graph `adj`. -/
structure Good (C : Ctx ι α) (adj : α → α → Prop) (W : World ι) : Prop where
  done : Done (C.on adj) W.F W.merges
  adj_px : ∀ x y, adj x y → x ∈ C.px ∧ y ∈ C.px
  adj_symm : ∀ x y, adj x y → adj y x

omit [DecidableEq ι] in
/-- Facts that are always true of a good forest. -/
theorem Good.h0 {C : Ctx ι α} (hL : Lab C) {adj : α → α → Prop} {W : World ι} (h : Good C adj W) :
    ∀ p ∈ C.px, ∀ q ∈ C.px, C.lab p = C.lab q → LConn adj C.g (C.g p) p q := by
  intro p hp q hq e
  have hg : C.g q = C.g p := by rw [← hL.lab_gray q hq, ← e, hL.lab_gray p hp]
  refine (h.done.conn (C.g p) p hp q hq (le_refl _) (by show C.g q ≤ _; omega)).2 ?_
  show LConn _ _ _ (C.lab p) (C.lab q)
  rw [e]; exact .refl

/-- A good forest with a pair of resolved labels waiting to be joined. -/
theorem Good.pending {C : Ctx ι α} (hL : Lab C) {adj : α → α → Prop} {W : World ι} (h : Good C adj W)
    {p q : α} (hp : p ∈ C.px) (hq : q ∈ C.px) {k k' : Nat} {a b : ι} (ha : Res W.F k (C.lab p) a)
    (hb : Res W.F k' (C.lab q) b) : LInv (C.on (addPair adj p q)) ⟨W.F, some b, some a, 0, W.merges⟩ := by
  have hpr := hL.lab_reg p hp
  have hqr := hL.lab_reg q hq
  have hstr : Str C.isReg C.gr W.F W.merges := h.done.str
  obtain ⟨har, hag⟩ := hstr.res_gray hpr ha
  obtain ⟨hbr, hbg⟩ := hstr.res_gray hqr hb
  refine ⟨hstr, ⟨b, rfl, hbr, hb.live⟩, ?_, .inl rfl, ?_, ?_⟩
  · intro x hx; obtain rfl := Option.some.inj hx; exact ⟨har, ha.live⟩
  · have hsymE : ∀ x y, (edge W.F x y ∨ pend (some b) (some a) x y) →
        (edge W.F y x ∨ pend (some b) (some a) y x) :=
      fun u v hh => hh.elim (fun e => .inl (edge_symm e)) (fun e => .inr (pend_symm e))
    have hsymA : ∀ x y, addPair adj p q x y → addPair adj p q y x := by
      rintro x y (e | ⟨e1, e2⟩ | ⟨e1, e2⟩)
      · exact .inl (h.adj_symm _ _ e)
      · exact .inr (.inr ⟨e2, e1⟩)
      · exact .inr (.inl ⟨e2, e1⟩)
    have hweak : ∀ {l x y}, LConn adj C.g l x y → LConn (addPair adj p q) C.g l x y := by
      intro l x y hc
      exact lconn_of_edges (fun x y e => LConn.edge (.inl e) (by omega) (by omega)) hc
    have hweakE : ∀ {l x y}, LConn (edge W.F) C.gr l x y →
        LConn (fun x y => edge W.F x y ∨ pend (some b) (some a) x y) C.gr l x y := by
      intro l x y hc
      exact lconn_of_edges (fun x y e => LConn.edge (.inl e) (by omega) (by omega)) hc
    have hpa : LConn (fun x y => edge W.F x y ∨ pend (some b) (some a) x y) C.gr (C.g p) (C.lab p) a := by
      rw [← hL.lab_gray p hp]
      exact hstr.res_conn (fun x y _ e => .inl (.inl e)) hpr ha
    have hqb : LConn (fun x y => edge W.F x y ∨ pend (some b) (some a) x y) C.gr (C.g q) (C.lab q) b := by
      rw [← hL.lab_gray q hq]
      exact hstr.res_conn (fun x y _ e => .inl (.inl e)) hqr hb
    have hpq : LConn (fun x y => edge W.F x y ∨ pend (some b) (some a) x y) C.gr
        (max (C.g p) (C.g q)) (C.lab p) (C.lab q) := by
      have e1 := hL.lab_gray p hp
      have e2 := hL.lab_gray q hq
      refine (hpa.mono (by omega)).trans (LConn.trans (LConn.edge (.inr (.inr ⟨rfl, rfl⟩)) ?_ ?_)
        ((hqb.symm hsymE).mono (by omega))) <;> omega
    obtain ⟨pa, hpa1, hpa2⟩ := hL.reg_lab a har
    obtain ⟨qb, hqb1, hqb2⟩ := hL.reg_lab b hbr
    have epa : C.g pa = C.g p := by
      rw [← hL.lab_gray pa hpa1, ← hL.lab_gray p hp, hpa2, hag]
    have eqb : C.g qb = C.g q := by
      rw [← hL.lab_gray qb hqb1, ← hL.lab_gray q hq, hqb2, hbg]
    have c1 : LConn adj C.g (C.g p) p pa := by
      refine (h.done.conn (C.g p) p hp pa hpa1 (le_refl _) (by show C.g pa ≤ _; omega)).2 ?_
      show LConn _ _ _ (C.lab p) (C.lab pa)
      rw [hpa2, ← hL.lab_gray p hp]
      exact hstr.res_conn (fun x y _ e => .inl e) hpr ha
    have c2 : LConn adj C.g (C.g q) q qb := by
      refine (h.done.conn (C.g q) q hq qb hqb1 (le_refl _) (by show C.g qb ≤ _; omega)).2 ?_
      show LConn _ _ _ (C.lab q) (C.lab qb)
      rw [hqb2, ← hL.lab_gray q hq]
      exact hstr.res_conn (fun x y _ e => .inl e) hqr hb
    have c3 : LConn (addPair adj p q) C.g (max (C.gr b) (C.gr a)) qb pa := by
      have e1 := hL.lab_gray p hp
      have e2 := hL.lab_gray q hq
      refine (((hweak c2).symm hsymA).mono (by omega)).trans
        (LConn.trans (LConn.edge (.inr (.inr ⟨rfl, rfl⟩)) ?_ ?_) ((hweak c1).mono (by omega))) <;> omega
    refine conn_lift (C := C) hL ?_ ?_ ?_ ?_ ?_
    · rintro x y (e | ⟨e1, e2⟩ | ⟨e1, e2⟩)
      · exact h.adj_px x y e
      · subst e1 e2; exact ⟨hp, hq⟩
      · subst e1 e2; exact ⟨hq, hp⟩
    · rintro x y hx ((e | e) | ⟨e1, e2⟩ | ⟨e1, e2⟩)
      · exact hstr.par_reg x hx y e
      · exact hstr.reg_par y x e
      · obtain rfl := Option.some.inj e2; exact har
      · obtain rfl := Option.some.inj e1; exact hbr
    · rintro x y (e | ⟨e1, e2⟩ | ⟨e1, e2⟩)
      · obtain ⟨k1, k2⟩ := h.adj_px x y e
        refine hweakE ((h.done.conn _ x k1 y k2 (by show C.g x ≤ _; omega) (by show C.g y ≤ _; omega)).1 ?_)
        exact LConn.edge e (by show C.g x ≤ _; omega) (by show C.g y ≤ _; omega)
      · subst e1 e2; exact hpq
      · subst e1 e2; rw [Nat.max_comm]; exact hpq.symm hsymE
    · intro x hx y hy e; exact hweak (h.h0 hL x hx y hy e)
    · rintro x y hx (e | ⟨e1, e2⟩ | ⟨e1, e2⟩)
      · have hy : C.isReg y := e.elim (fun e => hstr.par_reg x hx y e) (fun e => hstr.reg_par y x e)
        obtain ⟨u, hu, eu⟩ := hL.reg_lab x hx
        obtain ⟨v, hv, ev⟩ := hL.reg_lab y hy
        refine ⟨u, hu, v, hv, eu, ev, hweak ?_⟩
        have gu := hL.lab_gray u hu
        have gv := hL.lab_gray v hv
        rw [eu] at gu; rw [ev] at gv
        refine (h.done.conn _ u hu v hv (by show C.g u ≤ _; omega) (by show C.g v ≤ _; omega)).2 ?_
        show LConn _ _ _ (C.lab u) (C.lab v)
        rw [eu, ev]
        exact LConn.edge e (by show C.gr x ≤ _; omega) (by show C.gr y ≤ _; omega)
      · obtain rfl := Option.some.inj e1; obtain rfl := Option.some.inj e2
        exact ⟨qb, hqb1, pa, hpa1, hqb2, hpa2, c3⟩
      · obtain rfl := Option.some.inj e1; obtain rfl := Option.some.inj e2
        refine ⟨pa, hpa1, qb, hqb1, hpa2, hqb2, ?_⟩
        rw [Nat.max_comm]; exact c3.symm hsymA
  · intro ht r hr hl
    exact ⟨0, 0, by rw [h.done.size ht r hr hl]; rfl, by simp, by simp, by simp, by simp⟩

theorem joinAt_good {C : Ctx ι α} (hL : Lab C) {adj : α → α → Prop} {W : World ι} (h : Good C adj W)
    {p q : α} (hp : p ∈ C.px) (hq : q ∈ C.px) {fuel steps : Nat} (hf : W.merges + steps ≤ fuel)
    (hn : 512 ≤ steps) :
    ∃ W', joinAt fuel steps W (C.lab p) (C.lab q) = some W' ∧ Good C (addPair adj p q) W' ∧
      W'.merges ≤ W.merges + steps := by
  have hpr := hL.lab_reg p hp
  have hqr := hL.lab_reg q hq
  have hstr : Str C.isReg C.gr W.F W.merges := h.done.str
  obtain ⟨k, hk, a, ha⟩ := hstr.res _ hpr
  obtain ⟨k', hk', b, hb⟩ := hstr.res _ hqr
  unfold joinAt
  rw [chase_res ha (by omega), chase_res hb (by omega)]
  dsimp only
  have hinv := h.pending hL hp hq ha hb
  obtain ⟨W', h1, h2, h3⟩ := connect_spec hinv hf hn
  refine ⟨W', h1, ⟨h2, ?_, ?_⟩, h3⟩
  · rintro x y (e | ⟨e1, e2⟩ | ⟨e1, e2⟩)
    · exact h.adj_px x y e
    · subst e1 e2; exact ⟨hp, hq⟩
    · subst e1 e2; exact ⟨hq, hp⟩
  · rintro x y (e | ⟨e1, e2⟩ | ⟨e1, e2⟩)
    · exact .inl (h.adj_symm _ _ e)
    · exact .inr (.inr ⟨e2, e1⟩)
    · exact .inr (.inl ⟨e2, e1⟩)

theorem joinAll_good {C : Ctx ι α} (hL : Lab C) {fuel steps : Nat} (hn : 512 ≤ steps) :
    ∀ (l : List (α × α)) {adj : α → α → Prop} {W : World ι}, Good C adj W →
      (∀ e ∈ l, e.1 ∈ C.px ∧ e.2 ∈ C.px) → W.merges + steps * l.length ≤ fuel →
      ∃ W', joinAll fuel steps W (l.map (fun e => (C.lab e.1, C.lab e.2))) = some W' ∧
        Good C (addPairs adj l) W' ∧ W'.merges ≤ W.merges + steps * l.length
  | [], adj, W, h, _, _ => by
    refine ⟨W, rfl, ?_, by simp⟩
    have : addPairs adj ([] : List (α × α)) = adj := by
      funext x y; simp [addPairs]
    rw [this]; exact h
  | (p, q) :: l, adj, W, h, hpx, hf => by
    rw [List.length_cons, Nat.mul_add, Nat.mul_one] at hf
    obtain ⟨hp, hq⟩ := hpx (p, q) (by simp)
    obtain ⟨W1, h1, h2, h3⟩ := joinAt_good hL h hp hq (fuel := fuel) (steps := steps) (by omega) hn
    obtain ⟨W2, h4, h5, h6⟩ := joinAll_good hL (fuel := fuel) hn l h2
      (fun e he => hpx e (List.mem_cons_of_mem _ he)) (by omega)
    refine ⟨W2, ?_, ?_, by rw [List.length_cons, Nat.mul_add, Nat.mul_one]; omega⟩
    · simp only [List.map_cons, joinAll, h1]; exact h4
    · have : addPairs adj ((p, q) :: l) = addPairs (addPair adj p q) l := by
        funext x y
        simp only [addPairs, addPair, List.mem_cons, Prod.mk.injEq, eq_iff_iff]
        constructor
        · rintro (e | (e | e) | (⟨e1, e2⟩ | e))
          · exact .inl (.inl e)
          · exact .inl (.inr (.inl e))
          · exact .inr (.inl e)
          · exact .inl (.inr (.inr ⟨e2, e1⟩))
          · exact .inr (.inr e)
        · rintro ((e | e | ⟨e1, e2⟩) | e | e)
          · exact .inl e
          · exact .inr (.inl (.inl e))
          · exact .inr (.inr (.inl ⟨e2, e1⟩))
          · exact .inr (.inl (.inr e))
          · exact .inr (.inr (.inr e))
      rw [this]; exact h5

omit [DecidableEq ι] in
/-- How the tree seen by later stages is read from the parent links. -/
theorem Str.view {isReg : ι → Prop} {gr : ι → Nat} {F : Forest ι} {m : Nat} (hstr : Str isReg gr F m) {px : Finset α}
    {lab : α → ι} (hreg : ∀ p ∈ px, isReg (lab p)) {fuel : Nat} (hf : m ≤ fuel) :
    (∀ p ∈ px, ∃ k, Res F k (lab p) ((forestTree fuel isReg lab F).lab p)) ∧
    (∀ r, isReg r → RealPar F r ((forestTree fuel isReg lab F).parent r)) ∧
    (∀ a, isReg a → (F a).merged = false → ∀ b,
      (forestTree fuel isReg lab F).parent a = some b →
      isReg b ∧ (F b).merged = false ∧ gr a < gr b ∧ Up F a b) ∧
    (∀ r, (F r).merged = false → ∀ a, isReg a → (F a).merged = false →
      ((forestTree fuel isReg lab F).Anc a r ↔ Up F a r)) ∧
    (∀ r, (F r).merged = false → ∀ p ∈ px,
      ((forestTree fuel isReg lab F).Under r p ↔ Up F (lab p) r)) := by
  have hlab : ∀ p ∈ px, ∃ k, Res F k (lab p) ((forestTree fuel isReg lab F).lab p) := by
    intro p hp
    obtain ⟨k, hk, x, hx⟩ := hstr.res _ (hreg p hp)
    refine ⟨k, ?_⟩
    have : (forestTree fuel isReg lab F).lab p = x := by
      simp only [forestTree, chase_res hx (show k ≤ fuel by omega), Option.getD_some]
    rw [this]; exact hx
  have hpar : ∀ r, isReg r → RealPar F r ((forestTree fuel isReg lab F).parent r) := by
    intro r hr
    obtain ⟨sp, h1, h2⟩ := hstr.chase_parent hf hr
    have : (forestTree fuel isReg lab F).parent r = sp := by
      simp only [forestTree, h1, Option.getD_some]
    rw [this]; exact h2
  have hreal : ∀ a, isReg a → (F a).merged = false → ∀ b,
      (forestTree fuel isReg lab F).parent a = some b →
      isReg b ∧ (F b).merged = false ∧ gr a < gr b ∧ Up F a b := by
    intro a ha hal b hb
    have h1 := hpar a ha
    rw [hb] at h1
    cases h1 with
    | some y x k h2 h3 =>
      obtain ⟨k1, k2⟩ := hstr.res_gray (hstr.par_reg a ha y h2) h3
      have := hstr.live_lt a ha hal y h2
      exact ⟨k1, h3.live, by omega, .head h2 h3.up⟩
  -- ancestors in the tree seen by later stages are the live raw ancestors
  have hanc : ∀ r, (F r).merged = false → ∀ a, isReg a → (F a).merged = false →
      ((forestTree fuel isReg lab F).Anc a r ↔ Up F a r) := by
    intro r hr a ha hal
    constructor
    · intro hA
      have : isReg a ∧ (F a).merged = false → Up F a r := by
        clear ha hal
        induction hA using ReflTransGen.head_induction_on with
        | refl => intro _; exact .refl
        | @head x y hxy _ ih =>
          rintro ⟨hx, hxl⟩
          obtain ⟨k1, k2, _, k3⟩ := hreal x hx hxl y hxy
          exact k3.trans (ih ⟨k1, k2⟩)
      exact this ⟨ha, hal⟩
    · generalize hk : 256 - gr a = n
      induction n using Nat.strong_induction_on generalizing a with
      | _ n ih =>
        intro hu
        by_cases e : a = r
        · subst e; exact .refl
        · have h1 := ((hpar a ha).up_iff hr e).1 hu
          obtain ⟨x, h2, h3⟩ := h1
          obtain ⟨k1, k2, k3, _⟩ := hreal a ha hal x h2
          have := hstr.gray_lt x k1
          exact .head h2 (ih (256 - gr x) (by omega) x k1 k2 rfl h3)
  have hunder : ∀ r, (F r).merged = false → ∀ p ∈ px,
      ((forestTree fuel isReg lab F).Under r p ↔ Up F (lab p) r) := by
    intro r hr p hp
    obtain ⟨k, hk⟩ := hlab p hp
    have hreg := hreg p hp
    rw [hk.up_iff hr]
    exact hanc r hr _ (hstr.res_gray hreg hk).1 hk.live
  exact ⟨hlab, hpar, hreal, hanc, hunder⟩

theorem Good.view {C : Ctx ι α} (hL : Lab C) {adj : α → α → Prop} {W : World ι} (h : Good C adj W)
    {fuel : Nat} (hf : W.merges ≤ fuel) :
    (∀ p ∈ C.px, ∃ k, Res W.F k (C.lab p) ((forestTree fuel C.isReg C.lab W.F).lab p)) ∧
    (∀ r, C.isReg r → RealPar W.F r ((forestTree fuel C.isReg C.lab W.F).parent r)) ∧
    (∀ a, C.isReg a → (W.F a).merged = false → ∀ b,
      (forestTree fuel C.isReg C.lab W.F).parent a = some b →
      C.isReg b ∧ (W.F b).merged = false ∧ C.gr a < C.gr b ∧ Up W.F a b) ∧
    (∀ r, (W.F r).merged = false → ∀ a, C.isReg a → (W.F a).merged = false →
      ((forestTree fuel C.isReg C.lab W.F).Anc a r ↔ Up W.F a r)) ∧
    (∀ r, (W.F r).merged = false → ∀ p ∈ C.px,
      ((forestTree fuel C.isReg C.lab W.F).Under r p ↔ Up W.F (C.lab p) r)) :=
  h.done.str.view hL.lab_reg hf

/-- The tree later stages see is the component tree. -/
theorem Good.tree {C : Ctx ι α} (hL : Lab C) {adj : α → α → Prop} {W : World ι} (h : Good C adj W)
    {fuel : Nat} (hf : W.merges ≤ fuel) :
    IsComponentTree adj C.g C.px (forestTree fuel C.isReg C.lab W.F) := by
  have hstr : Str C.isReg C.gr W.F W.merges := h.done.str
  obtain ⟨hlab, hpar, hreal, hanc, hunder⟩ := h.view hL hf
  have hconnUp : ∀ r a b, C.isReg r → (W.F r).merged = false → C.isReg a → Up W.F a r →
      (LConn (edge W.F) C.gr (C.gr r) a b ↔ (C.isReg b ∧ Up W.F b r)) := by
    have hup : ∀ r a, C.isReg a → Up W.F a r → LConn (edge W.F) C.gr (C.gr r) a r := by
      intro r a ha hu
      induction hu using ReflTransGen.head_induction_on with
      | refl => exact .refl
      | @head x y hxy hyr ih =>
        have hy := hstr.par_reg x ha y hxy
        have h1 := (hstr.up hy hyr).2
        have h2 := hstr.par_gray hxy
        exact .head ⟨.inl hxy, by omega, h1⟩ (ih hy)
    intro r a b hr hrl ha hau
    constructor
    · intro hc
      induction hc with
      | refl => exact ⟨ha, hau⟩
      | @tail x y _ hxy ih =>
        obtain ⟨h1, h2⟩ := ih
        rcases hxy.1 with e | e
        · refine ⟨hstr.par_reg x h1 y e, ?_⟩
          rcases ReflTransGen.cases_head h2 with e' | ⟨z, h3, h4⟩
          · subst e'
            have := hstr.live_lt x hr hrl y e
            have := hxy.2.2
            omega
          · rw [e] at h3; obtain rfl := Option.some.inj h3; exact h4
        · exact ⟨hstr.reg_par y x e, .head e h2⟩
    · rintro ⟨hb, hbu⟩
      exact (hup r a ha hau).trans ((hup r b hb hbu).symm (fun _ _ h => edge_symm h))
  refine ⟨?_, ?_, ?_, ?_, ?_, ?_⟩
  · intro p hp
    obtain ⟨k, hk⟩ := hlab p hp
    exact ⟨(hstr.res_gray (hL.lab_reg p hp) hk).1, hk.live⟩
  · intro p hp
    obtain ⟨k, hk⟩ := hlab p hp
    show (W.F _).gray = _
    rw [hstr.gray, (hstr.res_gray (hL.lab_reg p hp) hk).2, hL.lab_gray p hp]
  · rintro r ⟨hr, hl⟩
    obtain ⟨p, hp, e⟩ := hL.reg_lab r hr
    refine ⟨p, hp, ?_⟩
    simp only [forestTree, e, chase_res (show Res W.F 0 r r from ⟨hl, rfl⟩) (Nat.zero_le fuel), Option.getD_some]
  · rintro r ⟨hr, hl⟩ r' h1
    obtain ⟨k1, k2, k3, _⟩ := hreal r hr hl r' h1
    refine ⟨⟨k1, k2⟩, ?_⟩
    show (W.F r).gray < (W.F r').gray
    rw [hstr.gray, hstr.gray]; exact k3
  · rintro r ⟨hr, hl⟩ p hp hu q hq
    rw [hunder r hl p hp] at hu
    rw [hunder r hl q hq]
    show _ ↔ LConn adj C.g (W.F r).gray p q
    rw [hstr.gray]
    have hpg : C.g p ≤ C.gr r := by
      rw [← hL.lab_gray p hp]; exact (hstr.up (hL.lab_reg p hp) hu).2
    have hiff := hconnUp r (C.lab p) (C.lab q) hr hl (hL.lab_reg p hp) hu
    constructor
    · intro hq'
      have hqg : C.g q ≤ C.gr r := by
        rw [← hL.lab_gray q hq]; exact (hstr.up (hL.lab_reg q hq) hq').2
      exact (h.done.conn (C.gr r) p hp q hq hpg hqg).2 (hiff.2 ⟨hL.lab_reg q hq, hq'⟩)
    · intro hc
      have hqg : C.g q ≤ C.gr r := by
        rcases ReflTransGen.cases_tail hc with e | ⟨z, _, h3⟩
        · rw [e]; exact hpg
        · exact h3.2.2
      exact (hiff.1 ((h.done.conn (C.gr r) p hp q hq hpg hqg).1 hc)).2
  · rintro r ⟨hr, hl⟩ s hs
    show (W.F r).size = _
    rw [h.done.size hL.track r hr hl]
    classical
    unfold cnt
    congr 1
    ext p
    rw [Finset.mem_filter, hs p]
    constructor
    · rintro ⟨a, b⟩; exact ⟨a, (hunder r hl p a).2 b⟩
    · rintro ⟨a, b⟩; exact ⟨a, (hunder r hl p a).1 b⟩

end Verif.Connect
