import Verif.Proof.GridV1
import Verif.Proof.CutV1
import Verif.Props.Flood

/-!
# Properties C30 (flooding part), C61–C63: one patch of Fast MSER V1

The image is `img x y`, `gm` the gray mask; the patch lies at column `left`, row `top` of the image; `eight` is
8-neighbour mode.  `base`, `pts` and `border` are what the patch finds in the arrays it shares with the other
patches.  `v` is the state in which the loop of `make_tree_patch` ends.
-/

namespace Verif.Props

open Verif.Spec
open Verif.Flood (idx)
open Verif.V1 (Point Geo Rect patchV1 geoV1 AdjV1)

/-- The regions of V1 as a labelled tree; V1 does not store the region of a pixel (`lab`), only lists of points. -/
def treeOfV1 (v : V1.St) (lab : Nat × Nat → Nat) : RegionTree (Nat × Nat) Nat where
  isReg := fun r => r < v.nreg
  lab := lab
  gray := fun r => (v.regs r).gray
  parent := fun r => (v.regs r).parent
  size := fun r => (v.regs r).size

/-- The position of a point. -/
def posOf (v : V1.St) (p : Nat) : Nat × Nat := ((v.pts p).x, (v.pts p).y)

/-- Is the pixel on a side that will be joined? (left, right, top, bottom) -/
def OnJoined (w h : Nat) (joined : Nat → Bool) (p : Nat × Nat) : Prop :=
  (joined 0 = true ∧ p.1 = 0) ∨ (joined 1 = true ∧ p.1 + 1 = w) ∨
  (joined 2 = true ∧ p.2 = 0) ∨ (joined 3 = true ∧ p.2 + 1 = h)

/-- All that is known when flooding has ended. -/
structure FloodedV1 (eight : Bool) (w h : Nat) (img : Nat → Nat → Nat) (gm left top : Nat) (joined : Nat → Bool)
    (base : Nat) (pts : Nat → Point) (v : V1.St) (lab : Nat × Nat → Nat) (L : Nat → List Nat) : Prop where
  tree : IsComponentTree (AdjV1 eight w h) (fun p => img p.1 p.2 ^^^ gm) (pixels w h) (treeOfV1 v lab)
  run : ∀ r < v.nreg, IsRun (fun p => (v.pts p).next) (fun p => (v.pts p).prev) (L r) (v.regs r).head (v.regs r).tail
  size : ∀ r < v.nreg, (v.regs r).size = (L r).length ∧ (v.regs r).unmerged = (L r).length
  range : ∀ r < v.nreg, ∀ p ∈ L r, base ≤ p ∧ p < base + w * h
  nodup : ∀ r < v.nreg, ((L r).map (posOf v)).Nodup
  mem : ∀ r < v.nreg, ∀ q, q ∈ (L r).map (posOf v) ↔
    ∃ p ∈ pixels w h, (treeOfV1 v lab).Under r p ∧ q = (p.1 + left, p.2 + top)
  sub : ∀ r < v.nreg, ∀ r', (v.regs r).parent = some r' → L r <:+: L r'
  rect : ∀ r < v.nreg, V1.Tight v.pts (L r) (v.regs r).rect
  flag : ∀ r < v.nreg, (v.regs r).boundary = true ↔
    ∃ p ∈ pixels w h, (treeOfV1 v lab).Under r p ∧ OnJoined w h joined p
  side : ∀ p ∈ pixels w h,
    (joined 0 = true → p.1 = 0 → v.border 0 p.2 = some (lab p)) ∧
    (joined 1 = true → p.1 + 1 = w → v.border 1 p.2 = some (lab p)) ∧
    (joined 2 = true → p.2 = 0 → v.border 2 p.1 = some (lab p)) ∧
    (joined 3 = true → p.2 + 1 = h → v.border 3 p.1 = some (lab p))
  npts : v.npts = base + w * h
  refs : ∀ p, base ≤ p → p < base + w * h → (v.pts p).ref = none
  keep : ∀ p, p < base ∨ base + w * h ≤ p → v.pts p = pts p
  first : ∀ r < v.nreg, ∀ p ∈ pixels w h, ∀ a, (v.regs r).head = some a →
    posOf v a = (p.1 + left, p.2 + top) → lab p = r
  pix : ∀ a, base ≤ a → a < base + w * h → ∃ p ∈ pixels w h, posOf v a = (p.1 + left, p.2 + top) ∧
    ∀ r < v.nreg, (a ∈ L r ↔ (treeOfV1 v lab).Under r p)
  back : ∀ p ∈ pixels w h, ∃ a, base ≤ a ∧ a < base + w * h ∧ posOf v a = (p.1 + left, p.2 + top)
  inj : ∀ a b, base ≤ a → a < base + w * h → base ≤ b → b < base + w * h → posOf v a = posOf v b → a = b
  mutual' : V1.Mutual (fun a => base ≤ a ∧ a < base + w * h) (V1.nx v.pts) (V1.pv v.pts)
  top' : ∀ r < v.nreg, (v.regs r).parent = none → ∀ a, (v.regs r).head = some a → V1.pv v.pts a = none

variable {eight : Bool} {w h : Nat} {img : Nat → Nat → Nat} {gm left top : Nat} {joined : Nat → Bool} {base : Nat}
  {pts : Nat → Point} {border : Nat → Nat → Option Nat} {v : V1.St}

theorem okV1 (hI : ImageOK w h img gm) : (patchV1 eight w h img gm).OK :=
  V1.patchV1_ok hI.w_pos hI.h_pos hI.img_lt hI.gm_lt

theorem flagged_iff {p : Nat × Nat} (hp : p ∈ pixels w h) :
    V1.flagged (patchV1 eight w h img gm) (geoV1 w h left top joined) (idx w p.1 p.2) = true ↔ OnJoined w h joined p := by
  obtain ⟨h1, h2⟩ := V1.cell_idx (eight := eight) (h := h) (img := img) (gm := gm) (left := left) (top := top)
    (joined := joined) (y := p.2) (mem_pixels.1 hp).1
  have e1 : (geoV1 w h left top joined).joined = joined := rfl
  have e2 : (geoV1 w h left top joined).width = w := rfl
  have e3 : (geoV1 w h left top joined).height = h := rfl
  simp only [V1.flagged, V1.onSide, h1, h2, e1, e2, e3, OnJoined, Bool.or_eq_true, Bool.and_eq_true, decide_eq_true_eq]
  constructor
  · rintro (((h | h) | h) | h)
    · exact .inl ⟨h.2, h.1⟩
    · exact .inr (.inl ⟨h.2, h.1⟩)
    · exact .inr (.inr (.inl ⟨h.2, h.1⟩))
    · exact .inr (.inr (.inr ⟨h.2, h.1⟩))
  · rintro (h | h | h | h)
    · exact .inl (.inl (.inl ⟨h.2, h.1⟩))
    · exact .inl (.inl (.inr ⟨h.2, h.1⟩))
    · exact .inl (.inr ⟨h.2, h.1⟩)
    · exact .inr ⟨h.2, h.1⟩

/-- Flooding that has ended is like this, for values up to 256 and any size of the component stack. -/
theorem flooded_done {cap : Nat} (hw : 1 ≤ w) (hh : 1 ≤ h) {s : Flood.St} {c0 : Flood.Comp} {c : V1.Comp} {pix : Nat → Nat}
    {L : Nat → List Nat} (hF : Flood.Final (V1.patchCap cap eight w h img gm) s c0)
    (hD : V1.Done (V1.patchCap cap eight w h img gm) (geoV1 w h left top joined) base pts v s c pix L) :
    FloodedV1 eight w h img gm left top joined base pts v (fun p => s.lab (idx w p.1 p.2)) L := by
  · have hcard : (V1.patchCap cap eight w h img gm).px.card = w * h := Flood.gridPatch_card (img := img) (gm := gm)
    have hnp := hD.npts
    rw [hcard] at hnp
    have hpar : (fun a : Nat => (v.regs a).parent) = fun a => (s.regs a).parent := by
      funext a; rw [← hD.regs]; rfl
    have htree := V1.treeV1 (eight := eight) (img := img) (gm := gm) hF.isTree
    have htree' : treeOfV1 v (fun p => s.lab (idx w p.1 p.2)) = Flood.gridTree w s := by
      simp only [treeOfV1, Flood.gridTree, hD.nreg]
      congr 1
      · funext a; rw [← hD.regs]; rfl
      · funext a; rw [← hD.regs]; rfl
    have hroot : (∀ r < v.nreg, (v.regs r).parent = none → r = c.region) ∧
        ∀ p ∈ pixels w h, (Flood.gridTree w s).Under c.region p := by
      obtain ⟨hcl, hcr⟩ := hD.li.cs_lt c (by simp)
      obtain ⟨r0, h2, h3, h4, h5⟩ := htree.root V1.adjV1_mem V1.adjV1_symm (s := (0, 0))
        (mem_pixels.2 ⟨hw, hh⟩) (fun p hp => Relation.ReflTransGen.mono (fun a b => V1.adj48) _ _ (grid_connected p hp))
      have e2 := h4 c.region (by show _ < s.nreg; rw [← hD.nreg]; exact hcl) (by
        show (s.regs c.region).parent = none; rw [← hD.regs]; exact hcr)
      refine ⟨fun r hr hp => ?_, by rw [e2]; exact h5⟩
      have e1 := h4 r (by show r < s.nreg; rw [← hD.nreg]; exact hr) (by
        show (s.regs r).parent = none; rw [← hD.regs]; exact hp)
      rw [e1, e2]
    have hreg : ∀ r < v.nreg, V1.RegOK v.pts (fun p => s.lab (pix p)) (L r) r (v.regs r) := by
      intro r hr
      cases hp : (v.regs r).parent with
      | some r' => exact hD.li.fin r hr (by rw [hp]; simp)
      | none => rw [hroot.1 r hr hp]; exact hD.root
    have hcell : ∀ p ∈ pixels w h,
        V1.cellX (V1.patchCap cap eight w h img gm) (geoV1 w h left top joined) (idx w p.1 p.2) = p.1 ∧
        V1.cellY (V1.patchCap cap eight w h img gm) (geoV1 w h left top joined) (idx w p.1 p.2) = p.2 :=
      fun p hp => V1.cell_idx (eight := eight) (img := img) (gm := gm) (mem_pixels.1 hp).1
    -- points and pixels
    have hpix : ∀ p, base ≤ p → p < v.npts → ∃ q ∈ pixels w h, pix p = idx w q.1 q.2 ∧
        posOf v p = (q.1 + left, q.2 + top) := by
      intro p h1 h2
      obtain ⟨x, y, hx, hy, e⟩ := (V1.mem_pxV1 (eight := eight) (img := img) (gm := gm)).1 (hD.points.mem p h1 h2)
      have hm : ((x, y) : Nat × Nat) ∈ pixels w h := mem_pixels.2 ⟨hx, hy⟩
      refine ⟨(x, y), hm, e, ?_⟩
      have h3 := hD.li.xy p h1 h2
      have h4 := hcell _ hm
      rw [e] at h3
      simp only [posOf, h3.1, h3.2.1, V1.px, V1.py, h4.1, h4.2]
      rfl
    have hback : ∀ q ∈ pixels w h, ∃ p, base ≤ p ∧ p < v.npts ∧ pix p = idx w q.1 q.2 ∧
        posOf v p = (q.1 + left, q.2 + top) := by
      intro q hq
      obtain ⟨p, h1, h2, h3⟩ := hD.points.all _ (V1.idx_mem (eight := eight) (img := img) (gm := gm) hq)
      obtain ⟨q', h4, h5, h6⟩ := hpix p h1 h2
      rw [h3] at h5
      obtain ⟨e1, e2⟩ := Flood.idx_inj (mem_pixels.1 hq).1.le (mem_pixels.1 h4).1.le h5
      obtain rfl : q = q' := Prod.ext e1 e2
      exact ⟨p, h1, h2, h3, h6⟩
    have hinj : ∀ p q, base ≤ p → p < v.npts → base ≤ q → q < v.npts → posOf v p = posOf v q → p = q := by
      intro p q h1 h2 h3 h4 e
      obtain ⟨a, ha, ha1, ha2⟩ := hpix p h1 h2
      obtain ⟨b, hb, hb1, hb2⟩ := hpix q h3 h4
      rw [ha2, hb2, Prod.mk.injEq] at e
      obtain rfl : a = b := Prod.ext (by omega) (by omega)
      exact hD.points.inj p q h1 h2 h3 h4 (ha1.trans hb1.symm)
    have hrng : ∀ r < v.nreg, ∀ p ∈ L r, base ≤ p ∧ p < v.npts := fun r hr p hp => by
      have := (hD.li.mem r hr p).1 hp; exact ⟨this.1, this.2.1⟩
    have hunder : ∀ r (q : Nat × Nat), (treeOfV1 v (fun p => s.lab (idx w p.1 p.2))).Under r q ↔
        V1.Anc (fun a => (v.regs a).parent) (s.lab (idx w q.1 q.2)) r := fun r q => Iff.rfl
    have hmem : ∀ r < v.nreg, ∀ q, q ∈ (L r).map (posOf v) ↔
        ∃ p ∈ pixels w h, (treeOfV1 v (fun p => s.lab (idx w p.1 p.2))).Under r p ∧ q = (p.1 + left, p.2 + top) := by
      intro r hr q
      rw [List.mem_map]
      constructor
      · rintro ⟨p, hp, rfl⟩
        obtain ⟨h1, h2, h3⟩ := (hD.li.mem r hr p).1 hp
        obtain ⟨q, hq, e1, e2⟩ := hpix p h1 h2
        exact ⟨q, hq, by rw [hunder, ← e1]; exact h3, e2⟩
      · rintro ⟨q, hq, hu, rfl⟩
        obtain ⟨p, h1, h2, h3, h4⟩ := hback q hq
        exact ⟨p, (hD.li.mem r hr p).2 ⟨h1, h2, by rw [h3]; exact (hunder r q).1 hu⟩, h4⟩
    constructor
    · rw [htree']; exact htree
    · intro r hr
      have h2 := hreg r hr
      exact ⟨h2.ne, h2.head.symm, h2.tail.symm, hD.li.links r hr⟩
    · intro r hr; exact ⟨(hreg r hr).size, (hreg r hr).unmerged⟩
    · intro r hr p hp; rw [← hnp]; exact hrng r hr p hp
    · intro r hr
      refine List.Nodup.map_on ?_ (hD.li.nodup r hr)
      intro p hp q hq e
      have h2 := hrng r hr p hp
      have h3 := hrng r hr q hq
      exact hinj p q h2.1 h2.2 h3.1 h3.2 e
    · exact hmem
    · exact hD.li.sub
    · intro r hr; exact (hreg r hr).rect
    · intro r hr
      rw [hD.li.bnd r hr, List.any_eq_true]
      constructor
      · rintro ⟨p, hp, hf⟩
        obtain ⟨h1, h2, h3⟩ := (hD.li.mem r hr p).1 hp
        obtain ⟨q, hq, e1, e2⟩ := hpix p h1 h2
        refine ⟨q, hq, ?_, (flagged_iff (eight := eight) (img := img) (gm := gm) hq).1 (by rw [e1] at hf; exact hf)⟩
        rw [hunder, ← e1]; exact h3
      · rintro ⟨q, hq, hu, hj⟩
        obtain ⟨p, h1, h2, h3, h4⟩ := hback q hq
        refine ⟨p, (hD.li.mem r hr p).2 ⟨h1, h2, by rw [h3]; exact (hunder r q).1 hu⟩, ?_⟩
        rw [h3]; exact (flagged_iff (eight := eight) (img := img) (gm := gm) hq).2 hj
    · intro p hp
      have hs := hD.points.side _ (V1.idx_mem (eight := eight) (img := img) (gm := gm) hp)
      obtain ⟨c1, c2⟩ := hcell p hp
      have e2 : (geoV1 w h left top joined).width = w := rfl
      have e3 : (geoV1 w h left top joined).height = h := rfl
      have ej : (geoV1 w h left top joined).joined = joined := rfl
      refine ⟨fun j e => ?_, fun j e => ?_, fun j e => ?_, fun j e => ?_⟩
      · have := hs 0 (by simp only [V1.onSide, c1, ej]; simp [e, j])
        simpa [V1.sidePos, c2] using this
      · have := hs 1 (by simp only [V1.onSide, c1, ej, e2]; simp [e, j])
        simpa [V1.sidePos, c2] using this
      · have := hs 2 (by simp only [V1.onSide, c2, ej]; simp [e, j])
        simpa [V1.sidePos, c1] using this
      · have := hs 3 (by simp only [V1.onSide, c2, ej, e3]; simp [e, j])
        simpa [V1.sidePos, c1] using this
    · exact hnp
    · intro p h1 h2; exact (hD.li.xy p h1 (by omega)).2.2
    · intro p hp; exact hD.keep p (by omega)
    · intro r hr q hq a ha e
      have h2 := hreg r hr
      have hal : a ∈ L r := List.mem_of_mem_head? (h2.head ▸ ha)
      have h3 := h2.own a (h2.head ▸ ha)
      obtain ⟨b1, b2⟩ := hrng r hr a hal
      obtain ⟨q', hq', e1, e2⟩ := hpix a b1 b2
      rw [e2, Prod.mk.injEq] at e
      obtain rfl : q' = q := Prod.ext (by omega) (by omega)
      rw [← e1]; exact h3
    · intro a h1 h2
      rw [← hnp] at h2
      obtain ⟨q, hq, e1, e2⟩ := hpix a h1 h2
      refine ⟨q, hq, e2, fun r hr => ?_⟩
      rw [hD.li.mem r hr a, hunder, ← e1]
      exact ⟨fun k => k.2.2, fun k => ⟨h1, h2, k⟩⟩
    · intro q hq
      obtain ⟨p, h1, h2, _, h4⟩ := hback q hq
      exact ⟨p, h1, by rw [← hnp]; exact h2, h4⟩
    · intro a b h1 h2 h3 h4; rw [← hnp] at h2 h4; exact hinj a b h1 h2 h3 h4
    · have hcl := (hD.li.cs_lt c (by simp)).1
      have hC := hD.li.comp c (by simp)
      have := V1.mutual_of_run (hD.li.links _ hcl) hC.first hC.final
      have hall : ∀ a, a ∈ L c.region ↔ base ≤ a ∧ a < base + w * h := by
        intro a
        rw [hD.li.mem _ hcl a, ← hnp]
        refine ⟨fun k => ⟨k.1, k.2.1⟩, fun k => ⟨k.1, k.2, ?_⟩⟩
        obtain ⟨q, hq, e1, _⟩ := hpix a k.1 k.2
        have := hroot.2 q hq
        rw [← htree', hunder, ← e1] at this
        exact this
      simp only [hall] at this
      exact this
    · intro r hr hp a ha
      rw [hroot.1 r hr hp, hD.root.head] at ha
      exact (hD.li.comp c (by simp)).first a ha

/-- A run of the flooding machine that ends, for values up to 256 and any size of the component stack. -/
theorem floodedCap {cap : Nat} (hw : 1 ≤ w) (hh : 1 ≤ h) (hg : ∀ x y, x < w → y < h → img x y ^^^ gm < 257) {n : Nat}
    (hd : V1.run (V1.patchCap cap eight w h img gm) (geoV1 w h left top joined) n
      (V1.init (V1.patchCap cap eight w h img gm) base pts border) = .done v) :
    ∃ lab L, FloodedV1 eight w h img gm left top joined base pts v lab L := by
  have hP := V1.patchCap_ok (eight := eight) (cap := cap) hw hh hg
  have h1 := V1.sim_run (base := base) (pts0 := pts) hP
    (V1.geoV1_ok (eight := eight) (img := img) (gm := gm) (left := left) (top := top) (joined := joined)) n
    (Flood.inv_init hP) (V1.sim_init hP base pts border)
  revert h1
  cases hr : Flood.run (V1.patchCap cap eight w h img gm) n (Flood.init (V1.patchCap cap eight w h img gm)) with
  | next s => rintro ⟨v', h1⟩; rw [hd] at h1; simp at h1
  | ub => intro h1; rw [hd] at h1; simp at h1
  | done s =>
    rintro ⟨v', h1, ⟨c0, hF⟩, c, pix, L, hD⟩
    rw [hd] at h1
    obtain rfl : v = v' := by simpa using h1
    exact ⟨_, L, flooded_done hw hh hF hD⟩

/-- A run of the flooding machine of V1 that ends. -/
theorem floodedV1 (hI : ImageOK w h img gm) {n : Nat}
    (hd : V1.run (patchV1 eight w h img gm) (geoV1 w h left top joined) n
      (V1.init (patchV1 eight w h img gm) base pts border) = .done v) :
    ∃ lab L, FloodedV1 eight w h img gm left top joined base pts v lab L :=
  floodedCap (cap := 256) hI.w_pos hI.h_pos (fun x y hx hy =>
    Nat.lt_succ_of_lt (Nat.xor_lt_two_pow (n := 8) (hI.img_lt x y hx hy) hI.gm_lt)) hd

/-! ### A sample -/

/-- A 3×2 patch at column 5 and row 7 whose right and top sides are joined; its points start at index 100. -/
def sampleV1 (eight : Bool) : V1.Out :=
  V1.makeTreePatch eight 3 2 sampleImg 0 5 7 (fun k => k == 1 || k == 2) 100 (fun _ => ⟨0, 0, none, none, none⟩) (fun _ _ => none)

/-! ### C61 -/

/-- **C61** When the flooding of a V1 patch has ended, its regions are the component tree of the patch under 4- or
8-adjacency, according to the mode. -/
theorem C61_flood_builds_component_tree (hI : ImageOK w h img gm) {n : Nat}
    (hd : V1.run (patchV1 eight w h img gm) (geoV1 w h left top joined) n
      (V1.init (patchV1 eight w h img gm) base pts border) = .done v) :
    ∃ lab, IsComponentTree (if eight then Adj8 w h else Adj4 w h) (fun p => img p.1 p.2 ^^^ gm) (pixels w h)
      (treeOfV1 v lab) := by
  obtain ⟨lab, L, hF⟩ := floodedV1 hI hd
  exact ⟨lab, hF.tree⟩

/-- V1 and V2 flooding are in the same phase after the same number of steps. -/
theorem phaseV1 (hI : ImageOK w h img gm) (n : Nat) :
    match Flood.run (patchV1 eight w h img gm) n (Flood.init (patchV1 eight w h img gm)) with
    | .next _ => ∃ v', V1.run (patchV1 eight w h img gm) (geoV1 w h left top joined) n
        (V1.init (patchV1 eight w h img gm) base pts border) = .next v'
    | .done _ => ∃ v', V1.run (patchV1 eight w h img gm) (geoV1 w h left top joined) n
        (V1.init (patchV1 eight w h img gm) base pts border) = .done v'
    | .ub => V1.run (patchV1 eight w h img gm) (geoV1 w h left top joined) n
        (V1.init (patchV1 eight w h img gm) base pts border) = .ub := by
  have hP := okV1 (eight := eight) hI
  have h1 := V1.sim_run (base := base) (pts0 := pts) hP (V1.geoV1_ok (left := left) (top := top) (joined := joined)) n
    (Flood.inv_init hP) (V1.sim_init hP base pts border)
  revert h1
  cases Flood.run (patchV1 eight w h img gm) n (Flood.init (patchV1 eight w h img gm)) with
  | next s => exact id
  | ub => exact id
  | done s => rintro ⟨v', h1, _⟩; exact ⟨v', h1⟩

/-- **C61** With fewer than 256 different gray values the loop ends after exactly 5·w·h elementary steps in
4-neighbour mode and 9·w·h in 8-neighbour mode, not earlier. -/
theorem C61_exact_step_count (hI : ImageOK w h img gm) (hg : grayCount w h img gm < 256) :
    (∃ v, V1.makeTreePatch eight w h img gm left top joined base pts border = .done v) ∧
    ∀ n < (if eight then 9 else 5) * (w * h), ∃ v, V1.run (patchV1 eight w h img gm) (geoV1 w h left top joined) n
      (V1.init (patchV1 eight w h img gm) base pts border) = .next v := by
  have hP := okV1 (eight := eight) hI
  have hcap : (patchV1 eight w h img gm).cap = 256 := rfl
  have hcard : (patchV1 eight w h img gm).px.card = w * h := Flood.gridPatch_card (img := img) (gm := gm)
  have hgi : ((patchV1 eight w h img gm).px.image (patchV1 eight w h img gm).gray).card = grayCount w h img gm := gray_image
  have hnd : (patchV1 eight w h img gm).nd + 1 = if eight then 9 else 5 := by cases eight <;> rfl
  constructor
  · have h1 := Flood.run_inv hP ((if eight then 9 else 5) * (w * h)) (Flood.inv_init hP)
    have h2 := phaseV1 (eight := eight) (left := left) (top := top) (joined := joined) (base := base) (pts := pts)
      (border := border) hI ((if eight then 9 else 5) * (w * h))
    revert h1 h2
    cases Flood.run (patchV1 eight w h img gm) ((if eight then 9 else 5) * (w * h)) (Flood.init (patchV1 eight w h img gm)) with
    | next s' =>
      simp only
      rintro ⟨cs, F, h1, h2⟩
      have := h1.work_lt
      rw [h2, Flood.work_init, hcard, hnd] at this
      omega
    | done s' => exact fun _ h2 => h2
    | ub => simp only; rw [hgi, hcap]; omega
  · intro n hn
    have h1 := Flood.run_inv hP n (Flood.inv_init hP)
    have h2 := phaseV1 (eight := eight) (left := left) (top := top) (joined := joined) (base := base) (pts := pts)
      (border := border) hI n
    revert h1 h2
    cases Flood.run (patchV1 eight w h img gm) n (Flood.init (patchV1 eight w h img gm)) with
    | next s' => exact fun _ h2 => h2
    | done s' =>
      simp only
      rintro ⟨_, h2⟩
      rw [Flood.work_init, hcard, hnd] at h2
      omega
    | ub => simp only; rw [hgi, hcap]; omega

theorem sampleOK : ImageOK 3 2 sampleImg 0 :=
  ⟨by decide, by decide, fun x y _ _ => by unfold sampleImg; split <;> [skip; split] <;> decide, by decide⟩

/-- The sample meets the hypothesis of the theorems about ended runs, in both modes. -/
example : ∃ v, sampleV1 eight = .done v := (C61_exact_step_count sampleOK (by decide)).1

/-! ### C30 -/

theorem walk_run {next prev : Nat → Option Nat} : ∀ {l : List Nat} {h t : Option Nat}, IsRun next prev l h t →
    walk next l.length h = some l := by
  intro l
  induction l with
  | nil => intro h t hr; rfl
  | cons a l ih =>
    intro h t hr
    have hh : h = some a := hr.head.symm
    subst hh
    cases l with
    | nil => rfl
    | cons b l =>
      have hl : (next a = some b ∧ prev b = some a) ∧ Linked next prev (b :: l) := by
        have := hr.linked; unfold Linked at this ⊢; rw [List.isChain_cons_cons] at this; exact this
      have h1 := ih (h := some b) (t := t) ⟨by simp, rfl, by
        have := hr.last; rw [List.getLast?_cons_cons] at this; exact this, hl.2⟩
      show (walk next (b :: l).length (next a)).map (a :: ·) = _
      rw [hl.1.1, h1]; rfl

/-- **C30** When flooding has ended, every region's
`m_head` and `m_tail` are the ends of a doubly linked list of exactly `m_size` points.  The points are different
pixels, and they are exactly the pixels of the region. -/
theorem C30_flood_lists (hI : ImageOK w h img gm) {n : Nat}
    (hd : V1.run (patchV1 eight w h img gm) (geoV1 w h left top joined) n
      (V1.init (patchV1 eight w h img gm) base pts border) = .done v) :
    ∃ lab, IsComponentTree (if eight then Adj8 w h else Adj4 w h) (fun p => img p.1 p.2 ^^^ gm) (pixels w h)
        (treeOfV1 v lab) ∧
      ∀ r < v.nreg, ∃ l,
        IsRun (fun p => (v.pts p).next) (fun p => (v.pts p).prev) l (v.regs r).head (v.regs r).tail ∧
        walk (fun p => (v.pts p).next) (v.regs r).size (v.regs r).head = some l ∧
        (l.map (posOf v)).Nodup ∧
        ∀ q, q ∈ l.map (posOf v) ↔ ∃ p ∈ pixels w h, (treeOfV1 v lab).Under r p ∧ q = (p.1 + left, p.2 + top) := by
  obtain ⟨lab, L, hF⟩ := floodedV1 hI hd
  refine ⟨lab, hF.tree, fun r hr => ⟨L r, hF.run r hr, ?_, hF.nodup r hr, hF.mem r hr⟩⟩
  rw [(hF.size r hr).1]
  exact walk_run (hF.run r hr)

/-- **C30** (flooding) The list of a region is a contiguous piece of the list of its parent. -/
theorem C30_flood_sublists (hI : ImageOK w h img gm) {n : Nat}
    (hd : V1.run (patchV1 eight w h img gm) (geoV1 w h left top joined) n
      (V1.init (patchV1 eight w h img gm) base pts border) = .done v)
    {r r' : Nat} (hr : r < v.nreg) (hp : (v.regs r).parent = some r') :
    ∃ l l', walk (fun p => (v.pts p).next) (v.regs r).size (v.regs r).head = some l ∧
      walk (fun p => (v.pts p).next) (v.regs r').size (v.regs r').head = some l' ∧ l <:+: l' ∧ l.length < l'.length := by
  obtain ⟨lab, L, hF⟩ := floodedV1 hI hd
  have hr' : r' < v.nreg := (hF.tree.parent_reg r hr r' hp).1
  refine ⟨L r, L r', ?_, ?_, hF.sub r hr r' hp, ?_⟩
  · rw [(hF.size r hr).1]; exact walk_run (hF.run r hr)
  · rw [(hF.size r' hr').1]; exact walk_run (hF.run r' hr')
  · rw [← (hF.size r hr).1, ← (hF.size r' hr').1]
    exact hF.tree.size_lt hr hp

/-- **C30** (flooding) A patch writes exactly its own points: those before its first point and after its last one
are left alone, and no point is marked as removed. -/
theorem C30_flood_own_points (hI : ImageOK w h img gm) {n : Nat}
    (hd : V1.run (patchV1 eight w h img gm) (geoV1 w h left top joined) n
      (V1.init (patchV1 eight w h img gm) base pts border) = .done v) :
    v.npts = base + w * h ∧ (∀ p, p < base ∨ base + w * h ≤ p → v.pts p = pts p) ∧
    (∀ p, base ≤ p → p < base + w * h → (v.pts p).ref = none) ∧
    ∀ r < v.nreg, ∀ l, walk (fun p => (v.pts p).next) (v.regs r).size (v.regs r).head = some l →
      ∀ p ∈ l, base ≤ p ∧ p < base + w * h := by
  obtain ⟨lab, L, hF⟩ := floodedV1 hI hd
  refine ⟨hF.npts, hF.keep, hF.refs, fun r hr l hl => ?_⟩
  rw [(hF.size r hr).1, walk_run (hF.run r hr)] at hl
  obtain rfl := Option.some.inj hl
  exact hF.range r hr

/-! ### C62 -/

/-- **C62** The rectangle stored in a region is the smallest one containing its pixels. -/
theorem C62_bounding_box_is_tight (hI : ImageOK w h img gm) {n : Nat}
    (hd : V1.run (patchV1 eight w h img gm) (geoV1 w h left top joined) n
      (V1.init (patchV1 eight w h img gm) base pts border) = .done v) :
    ∃ lab, IsComponentTree (if eight then Adj8 w h else Adj4 w h) (fun p => img p.1 p.2 ^^^ gm) (pixels w h)
        (treeOfV1 v lab) ∧
      ∀ r < v.nreg,
        (∀ p ∈ pixels w h, (treeOfV1 v lab).Under r p →
          (v.regs r).rect.left ≤ p.1 + left ∧ p.1 + left ≤ (v.regs r).rect.right ∧
          (v.regs r).rect.top ≤ p.2 + top ∧ p.2 + top ≤ (v.regs r).rect.bottom) ∧
        (∃ p ∈ pixels w h, (treeOfV1 v lab).Under r p ∧ p.1 + left = (v.regs r).rect.left) ∧
        (∃ p ∈ pixels w h, (treeOfV1 v lab).Under r p ∧ p.1 + left = (v.regs r).rect.right) ∧
        (∃ p ∈ pixels w h, (treeOfV1 v lab).Under r p ∧ p.2 + top = (v.regs r).rect.top) ∧
        (∃ p ∈ pixels w h, (treeOfV1 v lab).Under r p ∧ p.2 + top = (v.regs r).rect.bottom) := by
  obtain ⟨lab, L, hF⟩ := floodedV1 hI hd
  refine ⟨lab, hF.tree, fun r hr => ?_⟩
  have hR := hF.rect r hr
  have back : ∀ a ∈ L r, ∃ p ∈ pixels w h, (treeOfV1 v lab).Under r p ∧ (v.pts a).x = p.1 + left ∧ (v.pts a).y = p.2 + top := by
    intro a ha
    obtain ⟨p, h1, h2, h3⟩ := (hF.mem r hr (posOf v a)).1 (List.mem_map.2 ⟨a, ha, rfl⟩)
    rw [posOf, Prod.mk.injEq] at h3
    exact ⟨p, h1, h2, h3.1, h3.2⟩
  refine ⟨?_, ?_, ?_, ?_, ?_⟩
  · intro p hp hu
    obtain ⟨a, ha, e⟩ := List.mem_map.1 ((hF.mem r hr _).2 ⟨p, hp, hu, rfl⟩)
    rw [posOf, Prod.mk.injEq] at e
    rw [← e.1, ← e.2]; exact hR.inside a ha
  · obtain ⟨a, ha, e⟩ := hR.left
    obtain ⟨p, h1, h2, h3, h4⟩ := back a ha
    exact ⟨p, h1, h2, by rw [← h3, e]⟩
  · obtain ⟨a, ha, e⟩ := hR.right
    obtain ⟨p, h1, h2, h3, h4⟩ := back a ha
    exact ⟨p, h1, h2, by rw [← h3, e]⟩
  · obtain ⟨a, ha, e⟩ := hR.top
    obtain ⟨p, h1, h2, h3, h4⟩ := back a ha
    exact ⟨p, h1, h2, by rw [← h4, e]⟩
  · obtain ⟨a, ha, e⟩ := hR.bottom
    obtain ⟨p, h1, h2, h3, h4⟩ := back a ha
    exact ⟨p, h1, h2, by rw [← h4, e]⟩

/-! ### C63 -/

/-- **C63** For every pixel on a side that is going to be joined the region of that pixel is recorded at its place
of that side (left and right by row, top and bottom by column), and a region is flagged as a boundary region
exactly if it contains such a pixel. -/
theorem C63_joined_sides_recorded (hI : ImageOK w h img gm) {n : Nat}
    (hd : V1.run (patchV1 eight w h img gm) (geoV1 w h left top joined) n
      (V1.init (patchV1 eight w h img gm) base pts border) = .done v) :
    ∃ lab, IsComponentTree (if eight then Adj8 w h else Adj4 w h) (fun p => img p.1 p.2 ^^^ gm) (pixels w h)
        (treeOfV1 v lab) ∧
      (∀ y < h, (joined 0 = true → v.border 0 y = some (lab (0, y))) ∧
        (joined 1 = true → v.border 1 y = some (lab (w - 1, y)))) ∧
      (∀ x < w, (joined 2 = true → v.border 2 x = some (lab (x, 0))) ∧
        (joined 3 = true → v.border 3 x = some (lab (x, h - 1)))) ∧
      ∀ r < v.nreg, (v.regs r).boundary = true ↔
        ∃ p ∈ pixels w h, (treeOfV1 v lab).Under r p ∧
          ((joined 0 = true ∧ p.1 = 0) ∨ (joined 1 = true ∧ p.1 = w - 1) ∨
            (joined 2 = true ∧ p.2 = 0) ∨ (joined 3 = true ∧ p.2 = h - 1)) := by
  obtain ⟨lab, L, hF⟩ := floodedV1 hI hd
  have hw := hI.w_pos
  have hh := hI.h_pos
  refine ⟨lab, hF.tree, fun y hy => ⟨fun j => ?_, fun j => ?_⟩, fun x hx => ⟨fun j => ?_, fun j => ?_⟩, fun r hr => ?_⟩
  · exact (hF.side (0, y) (mem_pixels.2 ⟨by simp only; omega, hy⟩)).1 j rfl
  · exact (hF.side (w - 1, y) (mem_pixels.2 ⟨by simp only; omega, hy⟩)).2.1 j (by simp only; omega)
  · exact (hF.side (x, 0) (mem_pixels.2 ⟨hx, by simp only; omega⟩)).2.2.1 j rfl
  · exact (hF.side (x, h - 1) (mem_pixels.2 ⟨hx, by simp only; omega⟩)).2.2.2 j (by simp only; omega)
  · rw [hF.flag r hr]
    have e : ∀ p : Nat × Nat, OnJoined w h joined p ↔ ((joined 0 = true ∧ p.1 = 0) ∨ (joined 1 = true ∧ p.1 = w - 1) ∨
            (joined 2 = true ∧ p.2 = 0) ∨ (joined 3 = true ∧ p.2 = h - 1)) := by
      intro p
      have e1 : p.1 + 1 = w ↔ p.1 = w - 1 := by omega
      have e2 : p.2 + 1 = h ↔ p.2 = h - 1 := by omega
      rw [OnJoined, e1, e2]
    constructor
    · rintro ⟨p, h1, h2, h3⟩; exact ⟨p, h1, h2, (e p).1 h3⟩
    · rintro ⟨p, h1, h2, h3⟩; exact ⟨p, h1, h2, (e p).2 h3⟩


end Verif.Props
