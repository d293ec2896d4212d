import Verif.Proof.OrderV1
import Verif.Proof.JoinV1
import Verif.Proof.Merge
import Verif.Props.FloodV1

/-!
# Fast MSER V1: from the flooded patches to the memory before joining
-/

namespace Verif.V1

open Function (update)
open Relation (ReflTransGen)
open Verif.Spec
open Verif.Partition
open Verif.Props (FloodedV1 treeOfV1 posOf)
open Verif.Connect (Flooded PatchTree initCtx initLab initReg initForest init_good init_lab inPatch samePatch forest_reg
  forest_parent up_of_anc anc_of_up Ctx Up Good Lab)

variable {hp vp w h : Nat} {img : Nat → Nat → Nat} {gm : Nat} {eight : Bool} {v : Nat → St} {lab : Nat → Nat × Nat → Nat}
  {L : Nat → Nat → List Nat} {pk : Nat → Nat → Point} {pts : Nat → Point}

/-- The trees of the patches, seen from the pixels of the whole image. -/
def patchTreeV1 (pi : Nat → PInfo) (v : Nat → St) (lab : Nat → Nat × Nat → Nat) (k : Nat) : PatchTree (Nat × Nat) where
  nreg := (v k).nreg
  regs := fun r => toReg ((v k).regs r)
  lab := fun p => lab k (p.1 - (pi k).left, p.2 - (pi k).top)

/-- All patches have been flooded. -/
def AllFlooded (eight : Bool) (hp vp w h : Nat) (img : Nat → Nat → Nat) (gm : Nat) (pk : Nat → Nat → Point) (v : Nat → St)
    (lab : Nat → Nat × Nat → Nat) (L : Nat → Nat → List Nat) : Prop :=
  ∀ k < hp * vp, FloodedV1 eight (pinfo hp vp w h k).width (pinfo hp vp w h k).height (subImage img (pinfo hp vp w h k)) gm
    (pinfo hp vp w h k).left (pinfo hp vp w h k).top (joinedV1 (hp * vp) k) (pointBase (pinfo hp vp w h) k) (pk k) (v k)
    (lab k) (L k)

theorem hasPixel (hhp : 1 ≤ hp) (hvp : 1 ≤ vp) {k : Nat} (hk : k < hp * vp) (p : Nat × Nat) :
    p ∈ (pixels w h).filter (fun p => patchOf hp vp w h p = k) ↔ (pinfo hp vp w h k).Has p := by
  have hin := pinfo_inside (w := w) (h := h) hhp hk
  rw [Finset.mem_filter]
  constructor
  · rintro ⟨h1, h2⟩; exact (patchOf_eq hhp hvp h1 hk).1 h2
  · intro hh
    have : p ∈ pixels w h := mem_pixels.2 (by unfold PInfo.Has at hh; omega)
    exact ⟨this, (patchOf_eq hhp hvp this hk).2 hh⟩

theorem allFlooded (hhp : 1 ≤ hp) (hvp : 1 ≤ vp) (hg : ∀ p ∈ pixels w h, gval img gm p < 256)
    (hF : AllFlooded eight hp vp w h img gm pk v lab L) :
    Flooded (AdjV1 eight w h) (gval img gm) (pixels w h) (patchOf hp vp w h) (hp * vp)
      (patchTreeV1 (pinfo hp vp w h) v lab) := by
  refine ⟨?_, fun p hp' => patchOf_lt hhp hvp hp', adjV1_mem, adjV1_symm, hg⟩
  intro k hk
  have hin := pinfo_inside (w := w) (h := h) hhp hk
  have hmem := hasPixel (w := w) (h := h) hhp hvp hk
  refine transport (hF k hk).tree (fun p => (p.1 - (pinfo hp vp w h k).left, p.2 - (pinfo hp vp w h k).top))
    ?_ ?_ ?_ adjV1_mem ?_ ?_ ?_ rfl rfl rfl rfl
  · intro p hp' q hq e
    rw [hmem] at hp' hq
    simp only [Prod.mk.injEq] at e
    unfold PInfo.Has at hp' hq
    ext <;> omega
  · intro p hp'
    rw [hmem] at hp'
    unfold PInfo.Has at hp'
    rw [mem_pixels]; simp only; omega
  · intro q hq
    rw [mem_pixels] at hq
    refine ⟨((pinfo hp vp w h k).left + q.1, (pinfo hp vp w h k).top + q.2), ?_, ?_⟩
    · rw [hmem]; unfold PInfo.Has; simp only; omega
    · ext <;> simp only <;> omega
  · intro x y
    rw [hmem, hmem]
    unfold inPatch AdjV1
    cases eight
    · simp only [Bool.false_eq_true, if_false]
      unfold Adj4
      constructor
      · rintro ⟨⟨h1, h2, h3⟩, h4, h5⟩
        have k1 := (patchOf_eq hhp hvp h1 hk).1 h4
        have k2 := (patchOf_eq hhp hvp h2 hk).1 h5
        refine ⟨k1, k2, ?_⟩
        unfold PInfo.Has at k1 k2
        rw [mem_pixels, mem_pixels]; simp only; omega
      · rintro ⟨k1, k2, h1, h2, h3⟩
        simp only at h3
        have m1 := Finset.mem_filter.1 ((hmem x).2 k1)
        have m2 := Finset.mem_filter.1 ((hmem y).2 k2)
        unfold PInfo.Has at k1 k2
        exact ⟨⟨m1.1, m2.1, by omega⟩, m1.2, m2.2⟩
    · simp only [if_true]
      unfold Adj8
      constructor
      · rintro ⟨⟨h1, h2, hne, h3⟩, h4, h5⟩
        have k1 := (patchOf_eq hhp hvp h1 hk).1 h4
        have k2 := (patchOf_eq hhp hvp h2 hk).1 h5
        refine ⟨k1, k2, ?_⟩
        unfold PInfo.Has at k1 k2
        rw [mem_pixels, mem_pixels]; simp only
        refine ⟨by omega, by omega, ?_, by omega⟩
        rw [Ne, Prod.mk.injEq]
        intro e
        exact hne (Prod.ext (by omega) (by omega))
      · rintro ⟨k1, k2, h1, h2, hne, h3⟩
        simp only at h3
        have m1 := Finset.mem_filter.1 ((hmem x).2 k1)
        have m2 := Finset.mem_filter.1 ((hmem y).2 k2)
        unfold PInfo.Has at k1 k2
        exact ⟨⟨m1.1, m2.1, fun e => hne (by rw [e]), by omega⟩, m1.2, m2.2⟩
  · intro p hp'
    rw [hmem] at hp'
    unfold PInfo.Has at hp'
    simp only [gval, subImage]
    rw [show (pinfo hp vp w h k).left + (p.1 - (pinfo hp vp w h k).left) = p.1 by omega,
      show (pinfo hp vp w h k).top + (p.2 - (pinfo hp vp w h k).top) = p.2 by omega]
  · intro p _; rfl

theorem memV1_forest (n : Nat) (pi : Nat → PInfo) :
    (memV1 n pi v pts).forest = initForest n (patchTreeV1 pi v lab) := by
  funext kr
  unfold Mem.forest memV1 initForest patchTreeV1
  dsimp only
  by_cases c : kr.1 < n ∧ kr.2 < (v kr.1).nreg
  · rw [if_pos c, if_pos c]; rfl
  · rw [if_neg c, if_neg c]; rfl

/-! ### Ranges of points -/

/-- The points of patch `k`. -/
def InRange (pi : Nat → PInfo) (k p : Nat) : Prop :=
  pointBase pi k ≤ p ∧ p < pointBase pi k + (pi k).width * (pi k).height

theorem pointBase_next (pi : Nat → PInfo) {j k : Nat} (hjk : j < k) :
    pointBase pi j + (pi j).width * (pi j).height ≤ pointBase pi k := by
  induction k with
  | zero => omega
  | succ k ih =>
    rw [pointBase]
    by_cases e : j = k
    · subst e
      have : (pi j).width * (pi j).height ≤ ((pi j).width + 2) * ((pi j).height + 2) :=
        Nat.mul_le_mul (by omega) (by omega)
      omega
    · have := ih (by omega); omega

theorem inRange_unique {pi : Nat → PInfo} {j k p : Nat} (h1 : InRange pi j p) (h2 : InRange pi k p) : j = k := by
  unfold InRange at h1 h2
  rcases Nat.lt_trichotomy j k with c | c | c
  · have := pointBase_next pi c; omega
  · exact c
  · have := pointBase_next pi c; omega

theorem memV1_pts {n k p : Nat} {pi : Nat → PInfo} (hk : k < n) (hr : InRange pi k p) :
    (memV1 n pi v pts).pts p = (v k).pts p := by
  have : (List.range n).find? (fun k =>
      decide (pointBase pi k ≤ p) && decide (p < pointBase pi k + (pi k).width * (pi k).height)) = some k := by
    rw [List.find?_range_eq_some]
    refine ⟨by simpa [InRange] using hr, List.mem_range.2 hk, ?_⟩
    intro j hj
    by_contra hc
    simp only [Bool.not_eq_true, Bool.not_eq_false', Bool.and_eq_true, decide_eq_true_eq] at hc
    have := inRange_unique (pi := pi) (j := j) (k := k) (p := p) (by simpa [InRange] using hc) hr
    omega
  unfold memV1
  dsimp only
  rw [this]

/-! ### The memory before joining -/

/-- The context of all joins of one image. -/
def ctxV1 (hp vp w h : Nat) (img : Nat → Nat → Nat) (gm : Nat) (v : Nat → St) (lab : Nat → Nat × Nat → Nat) :
    Ctx (Nat × Nat) (Nat × Nat) :=
  initCtx (gval img gm) (pixels w h) (patchOf hp vp w h) (hp * vp) (patchTreeV1 (pinfo hp vp w h) v lab)

/-- A point of some patch. -/
def IsPoint (hp vp w h p : Nat) : Prop := ∃ k < hp * vp, InRange (pinfo hp vp w h) k p

/-- The position of a point. -/
def ptPos (M : Mem (Nat × Nat)) (p : Nat) : Nat × Nat := ((M.pts p).x, (M.pts p).y)

section
variable (hhp : 1 ≤ hp) (hvp : 1 ≤ vp) (hF : AllFlooded eight hp vp w h img gm pk v lab L)
include hhp hvp hF

theorem point_info {k p : Nat} (hk : k < hp * vp) (hr : InRange (pinfo hp vp w h) k p) :
    ∃ q ∈ pixels (pinfo hp vp w h k).width (pinfo hp vp w h k).height,
      ptPos (memV1 (hp * vp) (pinfo hp vp w h) v pts) p = (q.1 + (pinfo hp vp w h k).left, q.2 + (pinfo hp vp w h k).top) ∧
      ptPos (memV1 (hp * vp) (pinfo hp vp w h) v pts) p ∈ pixels w h ∧
      (ctxV1 hp vp w h img gm v lab).lab (ptPos (memV1 (hp * vp) (pinfo hp vp w h) v pts) p) = (k, lab k q) ∧
      ∀ r < (v k).nreg, (p ∈ L k r ↔ (treeOfV1 (v k) (lab k)).Under r q) := by
  obtain ⟨q, hq, e, hL⟩ := (hF k hk).pix p hr.1 hr.2
  have e' : ptPos (memV1 (hp * vp) (pinfo hp vp w h) v pts) p =
      (q.1 + (pinfo hp vp w h k).left, q.2 + (pinfo hp vp w h k).top) := by
    rw [← e]; unfold ptPos posOf; rw [memV1_pts hk hr]
  have hq' := mem_pixels.1 hq
  have hm := Finset.mem_filter.1 ((hasPixel (w := w) (h := h) hhp hvp hk
    (q.1 + (pinfo hp vp w h k).left, q.2 + (pinfo hp vp w h k).top)).2 (by unfold PInfo.Has; dsimp only; omega))
  refine ⟨q, hq, e', by rw [e']; exact hm.1, ?_, hL⟩
  show initLab _ _ _ = _
  unfold initLab
  rw [e', hm.2]
  unfold patchTreeV1
  dsimp only
  rw [Nat.add_sub_cancel, Nat.add_sub_cancel]

theorem pixel_point {a : Nat × Nat} (ha : a ∈ pixels w h) :
    ∃ p, IsPoint hp vp w h p ∧ ptPos (memV1 (hp * vp) (pinfo hp vp w h) v pts) p = a := by
  have hk := patchOf_lt hhp hvp ha
  have hh := (hasPixel (w := w) (h := h) hhp hvp hk a).1 (Finset.mem_filter.2 ⟨ha, rfl⟩)
  generalize patchOf hp vp w h a = k at *
  unfold PInfo.Has at hh
  obtain ⟨p, h1, h2, h3⟩ := (hF k hk).back (a.1 - (pinfo hp vp w h k).left, a.2 - (pinfo hp vp w h k).top)
    (mem_pixels.2 (by dsimp only; omega))
  have hr : InRange (pinfo hp vp w h) k p := ⟨h1, h2⟩
  refine ⟨p, ⟨k, hk, hr⟩, ?_⟩
  unfold ptPos
  rw [memV1_pts hk hr]
  exact h3.trans (Prod.ext (by dsimp only; omega) (by dsimp only; omega))

theorem points2 : Points2 (ctxV1 hp vp w h img gm v lab) (IsPoint hp vp w h)
    (fun p => (ctxV1 hp vp w h img gm v lab).lab (ptPos (memV1 (hp * vp) (pinfo hp vp w h) v pts) p))
    (ptPos (memV1 (hp * vp) (pinfo hp vp w h) v pts)) := by
  refine ⟨?_, ?_, fun a ha => pixel_point hhp hvp hF ha, fun _ _ => rfl⟩
  · rintro p ⟨k, hk, hr⟩
    obtain ⟨_, _, _, h1, _⟩ := point_info (pts := pts) hhp hvp hF hk hr
    exact h1
  · rintro p q ⟨k, hk, hr⟩ ⟨k', hk', hr'⟩ e
    obtain ⟨_, _, _, _, h1, _⟩ := point_info (pts := pts) hhp hvp hF hk hr
    obtain ⟨_, _, _, _, h2, _⟩ := point_info (pts := pts) hhp hvp hF hk' hr'
    rw [e, h2, Prod.mk.injEq] at h1
    obtain ⟨rfl, _⟩ := h1
    unfold ptPos at e
    rw [memV1_pts hk hr, memV1_pts hk hr'] at e
    exact (hF k' hk).inj p q hr.1 hr.2 hr'.1 hr'.2 e

variable (hg : ∀ p ∈ pixels w h, gval img gm p < 256)
include hg

theorem init_lists : LS (IsPoint hp vp w h)
    (fun p => (ctxV1 hp vp w h img gm v lab).lab (ptPos (memV1 (hp * vp) (pinfo hp vp w h) v pts) p))
    (ctxV1 hp vp w h img gm v lab).isReg (memV1 (hp * vp) (pinfo hp vp w h) v pts).forest
    (memV1 (hp * vp) (pinfo hp vp w h) v pts) (fun kr => L kr.1 kr.2) [] [] (fun _ => False) := by
  have hFl := allFlooded hhp hvp hg hF
  have hfor := memV1_forest (v := v) (pts := pts) (lab := lab) (hp * vp) (pinfo hp vp w h)
  have hpt : ∀ {k r p : Nat}, k < hp * vp → r < (v k).nreg → p ∈ L k r → InRange (pinfo hp vp w h) k p :=
    fun hk hr hp => (hF _ hk).range _ hr _ hp
  have hreg : ∀ k r, k < hp * vp → r < (v k).nreg → (memV1 (hp * vp) (pinfo hp vp w h) v pts).regs (k, r) =
      { gray := ((v k).regs r).gray, parent := ((v k).regs r).parent.map (fun q => (k, q)), merged := false, patch := k
        size := ((v k).regs r).size, unmerged := ((v k).regs r).unmerged, head := ((v k).regs r).head.getD 0
        tail := ((v k).regs r).tail.getD 0, rect := ((v k).regs r).rect } := by
    intro k r h1 h2
    unfold memV1; dsimp only
    rw [if_pos ⟨h1, h2⟩]
  have hhead : ∀ k r, k < hp * vp → r < (v k).nreg →
      (L k r).head? = some ((memV1 (hp * vp) (pinfo hp vp w h) v pts).regs (k, r)).head := by
    intro k r hk hr
    have hR := (hF k hk).run r hr
    rw [hreg k r hk hr]; dsimp only
    rw [← hR.head]
    cases e : (L k r).head? with
    | none => exact absurd (List.head?_eq_none_iff.1 e) hR.ne
    | some a => rfl
  have htail : ∀ k r, k < hp * vp → r < (v k).nreg →
      (L k r).getLast? = some ((memV1 (hp * vp) (pinfo hp vp w h) v pts).regs (k, r)).tail := by
    intro k r hk hr
    have hR := (hF k hk).run r hr
    rw [hreg k r hk hr]; dsimp only
    rw [← hR.last]
    cases e : (L k r).getLast? with
    | none => exact absurd (List.getLast?_eq_none_iff.1 e) hR.ne
    | some a => rfl
  have hup : ∀ k r q, k < hp * vp → r < (v k).nreg → q < (v k).nreg →
      ((treeOfV1 (v k) (lab k)).Anc q r ↔ Up (memV1 (hp * vp) (pinfo hp vp w h) v pts).forest (k, q) (k, r)) := by
    intro k r q hk hr hq
    rw [hfor]
    exact ⟨fun a => up_of_anc hFl hk hq a, fun a => (anc_of_up a).2⟩
  have hxy : ∀ k p, k < hp * vp → InRange (pinfo hp vp w h) k p →
      (memV1 (hp * vp) (pinfo hp vp w h) v pts).pts p = (v k).pts p := fun k p hk hr => memV1_pts hk hr
  have hnoinn : ∀ q, ¬ Inn (memV1 (hp * vp) (pinfo hp vp w h) v pts).forest [] q := by
    rintro q ⟨X, hX, _⟩; simp at hX
  have href : ∀ p, IsPoint hp vp w h p → rf (memV1 (hp * vp) (pinfo hp vp w h) v pts).pts p = none := by
    rintro p ⟨k, hk, hr⟩
    unfold rf; rw [hxy k p hk hr]; exact (hF k hk).refs p hr.1 hr.2
  have hmem : ∀ k r, k < hp * vp → r < (v k).nreg → ∀ p, (p ∈ L k r ↔ IsPoint hp vp w h p ∧
      Up (memV1 (hp * vp) (pinfo hp vp w h) v pts).forest
        ((ctxV1 hp vp w h img gm v lab).lab (ptPos (memV1 (hp * vp) (pinfo hp vp w h) v pts) p)) (k, r)) := by
    intro k r hk hr p
    constructor
    · intro hp'
      have hir := hpt hk hr hp'
      refine ⟨⟨k, hk, hir⟩, ?_⟩
      obtain ⟨q, hq, _, _, h2, h3⟩ := point_info (pts := pts) hhp hvp hF hk hir
      rw [h2]
      exact (hup k r (lab k q) hk hr ((hF k hk).tree.lab_reg q hq)).1 ((h3 r hr).1 hp')
    · rintro ⟨⟨k', hk', hir⟩, hu⟩
      obtain ⟨q, hq, _, _, h2, h3⟩ := point_info (pts := pts) hhp hvp hF hk' hir
      rw [h2] at hu
      have hu' := hu
      rw [hfor] at hu'
      obtain rfl : k = k' := (anc_of_up hu').1
      exact (h3 r hr).2 ((hup k r (lab k q) hk hr ((hF k hk).tree.lab_reg q hq)).2 hu)
  have hown : ∀ k r, k < hp * vp → r < (v k).nreg → ∀ a, (L k r).head? = some a →
      (ctxV1 hp vp w h img gm v lab).lab (ptPos (memV1 (hp * vp) (pinfo hp vp w h) v pts) a) = (k, r) := by
    intro k r hk hr a ha
    have hir := hpt hk hr (List.mem_of_head? ha)
    obtain ⟨q, hq, h1, _, h2, h3⟩ := point_info (pts := pts) hhp hvp hF hk hir
    rw [h2]
    unfold ptPos at h1
    rw [hxy k a hk hir] at h1
    rw [(hF k hk).first r hr q hq a (by rw [← ((hF k hk).run r hr).head]; exact ha) h1]
  constructor
  · intro X hX; simp at hX
  · rintro ⟨k, r⟩ ⟨hk, hr⟩ _ p
    exact (hmem k r hk hr p).trans ⟨fun a => ⟨a.1, a.2, fun X hX => by simp at hX⟩, fun a => ⟨a.1, a.2.1⟩⟩
  · rintro ⟨k, r⟩ ⟨hk, hr⟩ _
    exact ((hF k hk).nodup r hr).of_map
  · rintro ⟨k, r⟩ ⟨hk, hr⟩ _
    refine Linked.mono ?_ ?_ ((hF k hk).run r hr).linked
    · intro a ha b e; unfold nx; rw [hxy k a hk (hpt hk hr ha)]; exact e
    · intro a ha b e; unfold pv; rw [hxy k a hk (hpt hk hr ha)]; exact e
  · rintro ⟨k, r⟩ ⟨hk, hr⟩ _; exact hhead k r hk hr
  · rintro ⟨k, r⟩ ⟨hk, hr⟩ _ q' _ _ hu
    rw [hown k r hk hr _ (hhead k r hk hr)] at hu
    exact hu
  · rintro ⟨k, r⟩ ⟨hk, hr⟩ _ ⟨k', r'⟩ ⟨hk', hr'⟩ _ hu _
    rw [hfor] at hu
    obtain ⟨e, ha⟩ := anc_of_up hu
    dsimp only at e ha ⊢
    subst e
    have : (treeOfV1 (v k') (lab k')).Anc r r' := ha
    have key : ∀ x, (treeOfV1 (v k') (lab k')).Anc r x → x < (v k').nreg ∧ L k' r <:+: L k' x := by
      intro x hx
      induction hx with
      | refl => exact ⟨hr, List.infix_rfl⟩
      | @tail y z _ hyz ih =>
        exact ⟨((hF k' hk).tree.parent_reg y ih.1 z hyz).1, ih.2.trans ((hF k' hk).sub y ih.1 z hyz)⟩
    exact (key r' this).2
  · constructor
    · rintro a b ⟨k, hk, hr⟩ e
      unfold nx at e
      rw [hxy k a hk hr] at e
      obtain ⟨h1, h2⟩ := (hF k hk).mutual'.next a b hr e
      exact ⟨⟨k, hk, h1⟩, by unfold pv; rw [hxy k b hk h1]; exact h2⟩
    · rintro a b ⟨k, hk, hr⟩ e
      unfold pv at e
      rw [hxy k b hk hr] at e
      obtain ⟨h1, h2⟩ := (hF k hk).mutual'.prev a b hr e
      exact ⟨⟨k, hk, h1⟩, by unfold nx; rw [hxy k a hk h1]; exact h2⟩
  · intro X hX; simp at hX
  · rintro ⟨k, r⟩ ⟨hk, hr⟩ _ _ htop
    have hpar : ((v k).regs r).parent = none := by
      cases e : ((v k).regs r).parent with
      | none => rfl
      | some r' =>
        obtain ⟨h1, h2⟩ := (hF k hk).tree.parent_reg r hr r' e
        have := htop (k, r') ⟨hk, h1⟩ (by unfold Mem.forest; dsimp only; rw [hreg k r' hk h1])
          ((hup k r' r hk h1 hr).1 (.single e))
        rw [Prod.mk.injEq] at this
        rw [this.2] at h2
        exact absurd h2 (lt_irrefl _)
    have ha := hhead k r hk hr
    unfold pv
    rw [hxy k _ hk (hpt hk hr (List.mem_of_head? ha))]
    exact (hF k hk).top' r hr hpar _ (by rw [← ((hF k hk).run r hr).head]; exact ha)
  · intro q _ _ hi; exact absurd hi (hnoinn q)
  · intro q _ _ hi; exact absurd hi (hnoinn q)
  · intro q _ _ hi; exact absurd hi (hnoinn q)
  · rintro ⟨k, r⟩ ⟨hk, hr⟩ _ _
    refine ⟨0, Nat.zero_le _, _, ⟨rfl, ?_⟩, htail k r hk hr⟩
    exact href _ ⟨k, hk, hpt hk hr (List.mem_of_getLast? (htail k r hk hr))⟩
  · rintro ⟨k, r⟩ ⟨hk, hr⟩ _ _ _; exact htail k r hk hr
  · rintro ⟨k, r⟩ ⟨hk, hr⟩ _ _
    obtain ⟨h1, h2⟩ := (hF k hk).size r hr
    rw [hreg k r hk hr, due_nil, due_nil]
    dsimp only
    rw [h1, h2]; omega
  · rintro ⟨k, r⟩ ⟨hk, hr⟩ _ _
    have hT := (hF k hk).rect r hr
    rw [hreg k r hk hr]
    dsimp only
    refine ⟨?_, ?_, ?_, ?_, ?_⟩
    · intro a ha; rw [hxy k a hk (hpt hk hr ha)]; exact hT.inside a ha
    · obtain ⟨a, ha, e⟩ := hT.left; exact ⟨a, .inl ha, by rw [hxy k a hk (hpt hk hr ha)]; exact e⟩
    · obtain ⟨a, ha, e⟩ := hT.right; exact ⟨a, .inl ha, by rw [hxy k a hk (hpt hk hr ha)]; exact e⟩
    · obtain ⟨a, ha, e⟩ := hT.top; exact ⟨a, .inl ha, by rw [hxy k a hk (hpt hk hr ha)]; exact e⟩
    · obtain ⟨a, ha, e⟩ := hT.bottom; exact ⟨a, .inl ha, by rw [hxy k a hk (hpt hk hr ha)]; exact e⟩
  · intro p hp' hne; exact absurd (href p hp') hne

/-- The memory before joining. -/
theorem init_vgood : VGood (ctxV1 hp vp w h img gm v lab) (IsPoint hp vp w h)
    (fun p => (ctxV1 hp vp w h img gm v lab).lab (ptPos (memV1 (hp * vp) (pinfo hp vp w h) v pts) p))
    (samePatch (AdjV1 eight w h) (patchOf hp vp w h)) (memV1 (hp * vp) (pinfo hp vp w h) v pts) := by
  refine ⟨?_, ⟨_, init_lists hhp hvp hF hg⟩, rfl⟩
  rw [memV1_forest (lab := lab)]
  exact init_good (allFlooded hhp hvp hg hF)

end

end Verif.V1
