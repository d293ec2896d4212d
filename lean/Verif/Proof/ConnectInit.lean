import Verif.Proof.ConnectTree

/-!
# Joining trees: the forest of the flooded patches
-/

namespace Verif.Connect

open Relation (ReflTransGen)
open Verif.Spec (LConn IsComponentTree RegionTree)

variable {α : Type}

/-- The regions of all patches. -/
def initReg (K : Nat) (P : Nat → PatchTree α) (kr : Nat × Nat) : Prop := kr.1 < K ∧ kr.2 < (P kr.1).nreg

/-- The labels of all patches. -/
def initLab (pof : α → Nat) (P : Nat → PatchTree α) (p : α) : Nat × Nat := (pof p, (P (pof p)).lab p)

/-- The context of all joins of one image. -/
def initCtx (g : α → Nat) (px : Finset α) (pof : α → Nat) (K : Nat) (P : Nat → PatchTree α) :
    Ctx (Nat × Nat) α where
  isReg := initReg K P
  gr := fun r => (initForest K P r).gray
  px := px
  lab := initLab pof P
  g := g
  tgt := fun _ _ _ => True
  track := True

section
variable {adj : α → α → Prop} {g : α → Nat} {px : Finset α} {pof : α → Nat} {K : Nat}
  {P : Nat → PatchTree α}

theorem forest_reg {kr : Nat × Nat} (h : initReg K P kr) : initForest K P kr =
    { gray := ((P kr.1).regs kr.2).gray
      parent := ((P kr.1).regs kr.2).parent.map (fun r => (kr.1, r))
      merged := false
      size := ((P kr.1).regs kr.2).size } := by
  unfold initForest; exact if_pos h

theorem forest_merged (kr : Nat × Nat) : (initForest K P kr).merged = false := by
  unfold initForest; split <;> rfl

theorem forest_parent {kr x : Nat × Nat} (h : (initForest K P kr).parent = some x) :
    initReg K P kr ∧ x.1 = kr.1 ∧ (P kr.1).tree.parent kr.2 = some x.2 := by
  by_cases hr : initReg K P kr
  · rw [forest_reg hr] at h
    obtain ⟨y, h1, h2⟩ := Option.map_eq_some_iff.1 h
    subst h2
    exact ⟨hr, rfl, h1⟩
  · rw [show initForest K P kr = ⟨0, none, false, 0⟩ from if_neg hr] at h; simp at h

theorem up_of_anc {k a b : Nat} (hF : Flooded adj g px pof K P) (hk : k < K) (ha : a < (P k).nreg)
    (h : (P k).tree.Anc a b) : Up (initForest K P) (k, a) (k, b) := by
  induction h with
  | refl => exact .refl
  | @tail x y hax hxy ih =>
    have hx : (P k).tree.isReg x := ((hF.tree k hk).anc_reg (show (P k).tree.isReg a from ha) hax).1
    refine .tail ih ?_
    rw [forest_reg (show initReg K P (k, x) from ⟨hk, hx⟩)]
    have : ((P k).regs x).parent = some y := hxy
    simp only [this, Option.map_some]

theorem anc_of_up {x y : Nat × Nat} (h : Up (initForest K P) x y) :
    y.1 = x.1 ∧ (P x.1).tree.Anc x.2 y.2 := by
  induction h with
  | refl => exact ⟨rfl, .refl⟩
  | @tail u v _ huv ih =>
    obtain ⟨_, h1, h2⟩ := forest_parent huv
    refine ⟨h1.trans ih.1, .tail ih.2 ?_⟩
    rw [ih.1] at h2; exact h2

theorem mem_patch (hF : Flooded adj g px pof K P) {p : α} (hp : p ∈ px) :
    pof p < K ∧ p ∈ px.filter (fun q => pof q = pof p) :=
  ⟨hF.pof_lt p hp, Finset.mem_filter.2 ⟨hp, rfl⟩⟩

theorem init_lab (hF : Flooded adj g px pof K P) : Lab (initCtx g px pof K P) := by
  refine ⟨?_, ?_, ?_, trivial⟩
  · intro p hp
    obtain ⟨h1, h2⟩ := mem_patch hF hp
    exact ⟨h1, (hF.tree _ h1).lab_reg p h2⟩
  · intro p hp
    obtain ⟨h1, h2⟩ := mem_patch hF hp
    show (initForest K P (initLab pof P p)).gray = g p
    rw [forest_reg (show initReg K P (initLab pof P p) from ⟨h1, (hF.tree _ h1).lab_reg p h2⟩)]
    exact (hF.tree _ h1).lab_gray p h2
  · rintro ⟨k, r⟩ ⟨h1, h2⟩
    obtain ⟨p, hp, e⟩ := (hF.tree k h1).reg_lab r h2
    obtain ⟨hp1, hp2⟩ := Finset.mem_filter.1 hp
    refine ⟨p, hp1, ?_⟩
    show (pof p, (P (pof p)).lab p) = (k, r)
    rw [hp2]; exact Prod.ext rfl e

theorem inPatch_samePatch {l : Nat} {k : Nat} {x y : α} (h : LConn (inPatch adj pof k) g l x y) :
    LConn (samePatch adj pof) g l x y :=
  lconn_of_edges (fun _ _ e => LConn.edge ⟨e.1, e.2.1.trans e.2.2.symm⟩ (by omega) (by omega)) h

theorem init_good (hF : Flooded adj g px pof K P) :
    Good (initCtx g px pof K P) (samePatch adj pof) ⟨initForest K P, 0⟩ := by
  have hL := init_lab hF
  have hgray : ∀ k r, initReg K P (k, r) → (initForest K P (k, r)).gray = (P k).tree.gray r := by
    intro k r h; rw [forest_reg h]; rfl
  refine ⟨⟨?_, ?_, ?_⟩, ?_, ?_⟩
  · exact {
      gray := fun r => rfl
      gray_lt := by
        intro r hr
        obtain ⟨p, hp, e⟩ := hL.reg_lab r hr
        show (initCtx g px pof K P).gr r < 256
        rw [← e, hL.lab_gray p hp]; exact hF.g_lt p hp
      par_reg := by
        rintro ⟨k, r⟩ ⟨h1, h2⟩ ⟨k', r'⟩ h3
        obtain ⟨_, h4, h5⟩ := forest_parent h3
        simp only at h4 h5; subst h4
        exact ⟨h1, ((hF.tree _ h1).parent_reg r h2 r' h5).1⟩
      reg_par := fun r r' h => (forest_parent h).1
      live_lt := by
        rintro ⟨k, r⟩ ⟨h1, h2⟩ _ ⟨k', r'⟩ h3
        obtain ⟨_, h4, h5⟩ := forest_parent h3
        simp only at h4 h5; subst h4
        obtain ⟨h6, h7⟩ := (hF.tree _ h1).parent_reg r h2 r' h5
        show (initForest K P (k', r)).gray < (initForest K P (k', r')).gray
        rw [hgray k' r ⟨h1, h2⟩, hgray k' r' ⟨h1, h6⟩]; exact h7
      merged_eq := by intro r _ h; rw [forest_merged] at h; simp at h
      res := fun r _ => ⟨0, le_refl _, r, forest_merged r, rfl⟩ }
  · refine conn_lift (C := initCtx g px pof K P) hL (E := edge (initForest K P)) ?_ ?_ ?_ ?_ ?_
    · intro x y h; exact hF.adj_px x y h.1
    · rintro x y hx (e | e)
      · obtain ⟨h1, h2, h3⟩ := forest_parent e
        refine ⟨by rw [h2]; exact hx.1, ?_⟩
        rw [h2]; exact ((hF.tree _ hx.1).parent_reg _ hx.2 _ h3).1
      · exact (forest_parent e).1
    · rintro x y ⟨hxy, hpo⟩
      obtain ⟨hx, hy⟩ := hF.adj_px x y hxy
      obtain ⟨k1, k2⟩ := mem_patch hF hx
      have k3 : y ∈ px.filter (fun q => pof q = pof x) := Finset.mem_filter.2 ⟨hy, hpo.symm⟩
      have hT := hF.tree _ k1
      obtain ⟨r, r1, r2, r3, _, r5⟩ := hT.threshold
        (fun a b h => ⟨hF.adj_symm _ _ h.1, h.2.2, h.2.1⟩)
        (fun a b h => Finset.mem_filter.2 ⟨(hF.adj_px _ _ h.1).2, h.2.2⟩) k2
        (show g x ≤ max (g x) (g y) by omega)
      have r6 := (r5 y k3).2 (LConn.edge ⟨hxy, rfl, hpo.symm⟩ (by omega) (by omega))
      have key : ∀ z ∈ px.filter (fun q => pof q = pof x), (P (pof x)).tree.Under r z →
          LConn (edge (initForest K P)) (initCtx g px pof K P).gr (max (g x) (g y))
            ((initCtx g px pof K P).lab z) (pof x, r) := by
        intro z hz hu
        obtain ⟨z1, z2⟩ := Finset.mem_filter.1 hz
        have hup := up_of_anc hF k1 (hT.lab_reg z hz) hu
        have : (initCtx g px pof K P).lab z = (pof x, (P (pof x)).lab z) := by
          show (pof z, (P (pof z)).lab z) = _
          rw [z2]
        rw [this]
        have hreg : ∀ u, Up (initForest K P) u (pof x, r) → u.1 = pof x → u.2 < (P (pof x)).nreg →
            LConn (edge (initForest K P)) (initCtx g px pof K P).gr (max (g x) (g y)) u (pof x, r) := by
          intro u hu
          induction hu using ReflTransGen.head_induction_on with
          | refl => intros; exact .refl
          | @head a b hab hbr ih =>
            intro h1 h2
            obtain ⟨_, b1, b2⟩ := forest_parent hab
            rw [h1] at b2 b1
            obtain ⟨c1, c2⟩ := hT.parent_reg _ h2 _ b2
            have c3 := (hT.anc_reg c1 (by have := (anc_of_up hbr).2; rwa [b1] at this)).2.1
            refine .head ⟨.inl hab, ?_, ?_⟩ (ih b1 c1)
            · show (initForest K P a).gray ≤ _
              obtain ⟨a1, a2⟩ := a; simp only at h1 h2 c2; subst h1
              rw [hgray _ _ ⟨k1, h2⟩]; simp only at c3; omega
            · show (initForest K P b).gray ≤ _
              obtain ⟨a1, a2⟩ := b; simp only at b1 c1 c3; subst b1
              rw [hgray _ _ ⟨k1, c1⟩]; omega
        exact hreg _ hup rfl (hT.lab_reg z hz)
      exact (key x k2 r2).trans ((key y k3 r6).symm (fun _ _ h => edge_symm h))
    · intro p hp q hq e
      obtain ⟨k1, k2⟩ := mem_patch hF hp
      have e' : (pof p, (P (pof p)).lab p) = (pof q, (P (pof q)).lab q) := e
      rw [Prod.mk.injEq] at e'
      have k3 : q ∈ px.filter (fun z => pof z = pof p) := Finset.mem_filter.2 ⟨hq, e'.1.symm⟩
      have hT := hF.tree _ k1
      refine inPatch_samePatch (k := pof p) ((hT.lab_eq k2 k3).1 ?_).2
      show (P (pof p)).lab p = (P (pof p)).lab q
      rw [e'.2, ← e'.1]
    · have key : ∀ x y, initReg K P x → (initForest K P x).parent = some y →
          ∃ p ∈ px, ∃ q ∈ px, initLab pof P p = x ∧ initLab pof P q = y ∧
            LConn (samePatch adj pof) g (initForest K P y).gray p q ∧
            LConn (samePatch adj pof) g (initForest K P y).gray q p := by
        rintro ⟨k, a⟩ ⟨k', b⟩ ⟨h1, h2⟩ h3
        obtain ⟨_, h4, h5⟩ := forest_parent h3
        simp only at h1 h2 h4 h5; subst h4
        have hT := hF.tree _ h1
        have h6 := (hT.parent_reg a h2 b h5).1
        obtain ⟨p, hp, ep⟩ := hT.reg_lab a h2
        obtain ⟨q, hq, eq⟩ := hT.reg_lab b h6
        obtain ⟨p1, p2⟩ := Finset.mem_filter.1 hp
        obtain ⟨q1, q2⟩ := Finset.mem_filter.1 hq
        have hu1 : (P k').tree.Under b p := by
          show ReflTransGen _ ((P k').tree.lab p) b
          rw [ep]; exact .single h5
        have hu2 : (P k').tree.Under b q := by
          show ReflTransGen _ ((P k').tree.lab q) b
          rw [eq]
        refine ⟨p, p1, q, q1, ?_, ?_, ?_, ?_⟩
        · show (pof p, (P (pof p)).lab p) = _
          rw [p2]; exact Prod.ext rfl ep
        · show (pof q, (P (pof q)).lab q) = _
          rw [q2]; exact Prod.ext rfl eq
        · rw [hgray _ _ ⟨h1, h6⟩]
          exact inPatch_samePatch ((hT.comp b h6 p hp hu1 q hq).1 hu2)
        · rw [hgray _ _ ⟨h1, h6⟩]
          exact inPatch_samePatch ((hT.comp b h6 q hq hu2 p hp).1 hu1)
      rintro x y hx (e | e)
      · obtain ⟨p, hp, q, hq, e1, e2, h1, _⟩ := key x y hx e
        exact ⟨p, hp, q, hq, e1, e2, h1.mono (le_max_right _ _)⟩
      · obtain ⟨p, hp, q, hq, e1, e2, _, h1⟩ := key y x (forest_parent e).1 e
        exact ⟨q, hq, p, hp, e2, e1, h1.mono (le_max_left _ _)⟩
  · rintro - ⟨k, r⟩ ⟨h1, h2⟩ _
    classical
    have hs : (initForest K P (k, r)).size = (P k).tree.size r := by rw [forest_reg ⟨h1, h2⟩]; rfl
    show (initForest K P (k, r)).size = _
    rw [hs]
    refine (hF.tree k h1).size_eq r h2 _ ?_
    intro p
    rw [Finset.mem_filter, Finset.mem_filter]
    constructor
    · rintro ⟨hp, hu⟩
      obtain ⟨h3, h4⟩ := anc_of_up hu
      have h5 : pof p = k := h3.symm
      refine ⟨⟨hp, h5⟩, ?_⟩
      subst h5
      exact h4
    · rintro ⟨⟨hp, h5⟩, hu⟩
      refine ⟨hp, ?_⟩
      subst h5
      exact up_of_anc hF h1 ((hF.tree _ h1).lab_reg p (Finset.mem_filter.2 ⟨hp, rfl⟩)) hu
  · intro x y h; exact hF.adj_px x y h.1
  · intro x y h; exact ⟨hF.adj_symm _ _ h.1, h.2.symm⟩

end

end Verif.Connect
