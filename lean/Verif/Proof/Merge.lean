import Verif.Proof.Partition
import Verif.Proof.ConnectInit
import Verif.Props.FloodMem

/-!
# From the flooded patches to the tree of the image
-/

namespace Verif.Partition

open Relation (ReflTransGen)
open Verif.Spec
open Verif.Flood (idx)
open Verif.FloodMem (MSt labelOf)
open Verif.Connect (Flooded initCtx init_good init_lab inPatch samePatch)

/-- Component trees can be renamed along a one-to-one map of pixels. -/
theorem transport {α β ι : Type _} {adj : β → β → Prop} {g : β → Nat} {px : Finset β}
    {T : RegionTree β ι} (hT : IsComponentTree adj g px T) {adj' : α → α → Prop} {g' : α → Nat}
    {px' : Finset α} {T' : RegionTree α ι} (e : α → β)
    (hinj : ∀ p ∈ px', ∀ q ∈ px', e p = e q → p = q) (hmap : ∀ p ∈ px', e p ∈ px)
    (hsurj : ∀ q ∈ px, ∃ p ∈ px', e p = q)
    (hpx : ∀ x y, adj x y → x ∈ px ∧ y ∈ px)
    (hadj : ∀ x y, adj' x y ↔ x ∈ px' ∧ y ∈ px' ∧ adj (e x) (e y))
    (hg : ∀ p ∈ px', g' p = g (e p)) (hlab : ∀ p ∈ px', T'.lab p = T.lab (e p))
    (h2 : T'.isReg = T.isReg) (h3 : T'.gray = T.gray)
    (h4 : T'.parent = T.parent) (h5 : T'.size = T.size) : IsComponentTree adj' g' px' T' := by
  have hU : ∀ p ∈ px', ∀ r, T'.Under r p ↔ T.Under r (e p) := by
    intro p hp r; unfold RegionTree.Under; rw [hlab p hp, h4]
  have hC : ∀ l, ∀ p ∈ px', ∀ q ∈ px', (LConn adj' g' l p q ↔ LConn adj g l (e p) (e q)) := by
    intro l p hp q hq
    constructor
    · intro hc
      clear hq
      induction hc with
      | refl => exact .refl
      | @tail x y _ hxy ih =>
        obtain ⟨a1, a2, a3⟩ := (hadj x y).1 hxy.1
        exact .tail ih ⟨a3, by rw [← hg x a1]; exact hxy.2.1, by rw [← hg y a2]; exact hxy.2.2⟩
    · intro hc
      have : ∀ z, LConn adj g l (e p) z → ∃ z' ∈ px', e z' = z ∧ LConn adj' g' l p z' := by
        intro z hz
        induction hz with
        | refl => exact ⟨p, hp, rfl, .refl⟩
        | @tail x y _ hxy ih =>
          obtain ⟨x', hx', ex, hxc⟩ := ih
          obtain ⟨y', hy', ey⟩ := hsurj y (hpx x y hxy.1).2
          refine ⟨y', hy', ey, .tail hxc ⟨(hadj x' y').2 ⟨hx', hy', by rw [ex, ey]; exact hxy.1⟩, ?_, ?_⟩⟩
          · rw [hg x' hx', ex]; exact hxy.2.1
          · rw [hg y' hy', ey]; exact hxy.2.2
      obtain ⟨z', hz', ez, hzc⟩ := this _ hc
      rw [← hinj z' hz' q hq ez]; exact hzc
  refine ⟨?_, ?_, ?_, ?_, ?_, ?_⟩
  · intro p hp; rw [h2, hlab p hp]; exact hT.lab_reg _ (hmap p hp)
  · intro p hp; rw [h3, hlab p hp, hg p hp]; exact hT.lab_gray _ (hmap p hp)
  · intro r hr
    rw [h2] at hr
    obtain ⟨q, hq, eq⟩ := hT.reg_lab r hr
    obtain ⟨p, hp, ep⟩ := hsurj q hq
    exact ⟨p, hp, by rw [hlab p hp, ep, eq]⟩
  · rw [h2, h3, h4]; exact hT.parent_reg
  · intro r hr p hp hu q hq
    rw [h2] at hr
    rw [hU p hp] at hu
    rw [hU q hq, h3, hC _ p hp q hq]
    exact hT.comp r hr _ (hmap p hp) hu _ (hmap q hq)
  · intro r hr s hs
    rw [h2] at hr
    rw [h5]
    classical
    have : (s.image e).card = s.card := by
      apply Finset.card_image_of_injOn
      intro x hx y hy hxy
      exact hinj x ((hs x).1 hx).1 y ((hs y).1 hy).1 hxy
    rw [← this]
    refine hT.size_eq r hr _ ?_
    intro q
    rw [Finset.mem_image]
    constructor
    · rintro ⟨p, hp, rfl⟩
      obtain ⟨a1, a2⟩ := (hs p).1 hp
      exact ⟨hmap p a1, (hU p a1 r).1 a2⟩
    · rintro ⟨hq, hu⟩
      obtain ⟨p, hp, rfl⟩ := hsurj q hq
      exact ⟨p, (hs p).2 ⟨hp, (hU p hp r).2 hu⟩, rfl⟩

variable {hp vp w h n : Nat} {img : Nat → Nat → Nat} {gm : Nat} {ms : Nat → MSt}

/-- The gray value seen by the flood. -/
abbrev gval (img : Nat → Nat → Nat) (gm : Nat) (p : Nat × Nat) : Nat := img p.1 p.2 ^^^ gm

theorem adj4_px {x y : Nat × Nat} (hxy : Adj4 w h x y) : x ∈ pixels w h ∧ y ∈ pixels w h := ⟨hxy.1, hxy.2.1⟩

theorem adj4_symm {x y : Nat × Nat} (hxy : Adj4 w h x y) : Adj4 w h y x := by
  obtain ⟨h1, h2, h3⟩ := hxy
  exact ⟨h2, h1, by omega⟩

/-- Every patch flooded. -/
theorem flooded (hhp : 1 ≤ hp) (hvp : 1 ≤ vp)
    (hg : ∀ p ∈ pixels w h, gval img gm p < 256)
    (hT : ∀ k < hp * vp, IsComponentTree
      (Adj4 (pinfo hp vp w h k).width (pinfo hp vp w h k).height)
      (fun p => subImage img (pinfo hp vp w h k) p.1 p.2 ^^^ gm)
      (pixels (pinfo hp vp w h k).width (pinfo hp vp w h k).height)
      (Props.memTree (pinfo hp vp w h k).width (ms k))) :
    Flooded (Adj4 w h) (gval img gm) (pixels w h) (patchOf hp vp w h) (hp * vp)
      (patchTree (pinfo hp vp w h) ms) := by
  refine ⟨?_, fun p hp' => patchOf_lt hhp hvp hp', fun x y hxy => adj4_px hxy, fun x y hxy => adj4_symm hxy, hg⟩
  intro k hk
  have hin := pinfo_inside (w := w) (h := h) hhp hk
  have hmem : ∀ p, p ∈ (pixels w h).filter (fun p => patchOf hp vp w h p = k) ↔
      (pinfo hp vp w h k).Has p := by
    intro p
    rw [Finset.mem_filter]
    constructor
    · rintro ⟨h1, h2⟩; exact (patchOf_eq hhp hvp h1 hk).1 h2
    · intro hh
      have : p ∈ pixels w h := mem_pixels.2 (by unfold PInfo.Has at hh; omega)
      exact ⟨this, (patchOf_eq hhp hvp this hk).2 hh⟩
  refine transport (hT k hk) (fun p => (p.1 - (pinfo hp vp w h k).left, p.2 - (pinfo hp vp w h k).top))
    ?_ ?_ ?_ (fun x y hxy => adj4_px hxy) ?_ ?_ ?_ rfl rfl rfl rfl
  · intro p hp' q hq e
    rw [hmem] at hp' hq
    simp only [Prod.mk.injEq] at e
    unfold PInfo.Has at hp' hq
    ext <;> omega
  · intro p hp'
    rw [hmem] at hp'
    unfold PInfo.Has at hp'
    rw [mem_pixels]; simp only; omega
  · intro q hq
    rw [mem_pixels] at hq
    refine ⟨((pinfo hp vp w h k).left + q.1, (pinfo hp vp w h k).top + q.2), ?_, ?_⟩
    · rw [hmem]; unfold PInfo.Has; simp only; omega
    · ext <;> simp only <;> omega
  · intro x y
    rw [hmem, hmem]
    unfold inPatch Adj4
    constructor
    · rintro ⟨⟨h1, h2, h3⟩, h4, h5⟩
      have k1 := (patchOf_eq hhp hvp h1 hk).1 h4
      have k2 := (patchOf_eq hhp hvp h2 hk).1 h5
      refine ⟨k1, k2, ?_⟩
      unfold PInfo.Has at k1 k2
      rw [mem_pixels, mem_pixels]; simp only; omega
    · rintro ⟨k1, k2, h1, h2, h3⟩
      simp only at h3
      have m1 := Finset.mem_filter.1 ((hmem x).2 k1)
      have m2 := Finset.mem_filter.1 ((hmem y).2 k2)
      unfold PInfo.Has at k1 k2
      exact ⟨⟨m1.1, m2.1, by omega⟩, m1.2, m2.2⟩
  · intro p hp'
    rw [hmem] at hp'
    unfold PInfo.Has at hp'
    simp only [gval, subImage]
    rw [show (pinfo hp vp w h k).left + (p.1 - (pinfo hp vp w h k).left) = p.1 by omega,
      show (pinfo hp vp w h k).top + (p.2 - (pinfo hp vp w h k).top) = p.2 by omega]
  · intro p _; rfl

/-- Reading a cell's region is labelling the cell's pixel. -/
theorem cellRegion_eq (hhp : 1 ≤ hp) (hvp : 1 ≤ vp) {c : Cell} (hc : CellOk (pinfo hp vp w h) c)
    (hk : c.1 < hp * vp) :
    cellPixel (pinfo hp vp w h) c ∈ pixels w h ∧
    cellRegion ms c = Connect.initLab (patchOf hp vp w h) (patchTree (pinfo hp vp w h) ms)
      (cellPixel (pinfo hp vp w h) c) := by
  obtain ⟨k, c⟩ := c
  unfold CellOk at hc
  simp only at hc hk
  have hin := pinfo_inside (w := w) (h := h) hhp hk
  have hm : cellPixel (pinfo hp vp w h) (k, c) ∈ pixels w h := by
    rw [mem_pixels]; unfold cellPixel; simp only; omega
  have hpo : patchOf hp vp w h (cellPixel (pinfo hp vp w h) (k, c)) = k := by
    rw [patchOf_eq hhp hvp hm hk]; unfold PInfo.Has cellPixel; simp only; omega
  refine ⟨hm, ?_⟩
  unfold Connect.initLab
  rw [hpo]
  unfold cellRegion patchTree cellPixel
  simp only
  congr 2
  unfold idx
  rw [show (pinfo hp vp w h k).top + (c / ((pinfo hp vp w h k).width + 2) - 1) - (pinfo hp vp w h k).top + 1
      = c / ((pinfo hp vp w h k).width + 2) by omega,
    show (pinfo hp vp w h k).left + (c % ((pinfo hp vp w h k).width + 2) - 1) - (pinfo hp vp w h k).left + 1
      = c % ((pinfo hp vp w h k).width + 2) by omega]
  exact (Nat.div_add_mod' c _).symm

/-- The main result about joining patches, with the shape of the joined forest. -/
theorem merge_shape (hl : layoutV2 n = some (hp, vp)) (hw : hp ≤ w) (hh : vp ≤ h)
    (hg : ∀ p ∈ pixels w h, gval img gm p < 256)
    (hT : ∀ k < n, IsComponentTree
      (Adj4 (pinfo hp vp w h k).width (pinfo hp vp w h k).height)
      (fun p => subImage img (pinfo hp vp w h k) p.1 p.2 ^^^ gm)
      (pixels (pinfo hp vp w h k).width (pinfo hp vp w h k).height)
      (Props.memTree (pinfo hp vp w h k).width (ms k)))
    {fuel : Nat} (hf : 512 * (allCells (pinfo hp vp w h) (callsV2 n)).length ≤ fuel) :
    ∃ W, mergeTrees n hp vp w h ms fuel 512 = some W ∧
      IsComponentTree (Adj4 w h) (gval img gm) (pixels w h) (mergedTree n hp vp w h ms fuel W) ∧
      Connect.Str (fun kr => kr.1 < n ∧ kr.2 < (ms kr.1).nreg) (fun r => (W.F r).gray) W.F W.merges ∧
      W.merges ≤ fuel := by
  obtain ⟨hC, hn, hhp, hvp⟩ := completeV2 hl
  subst hn
  have hF := flooded hhp hvp hg hT
  have hL := init_lab hF
  have hG := init_good hF
  have hcells : ∀ e ∈ allCells (pinfo hp vp w h) (callsV2 (hp * vp)),
      (CellOk (pinfo hp vp w h) e.1 ∧ e.1.1 < hp * vp) ∧ (CellOk (pinfo hp vp w h) e.2 ∧ e.2.1 < hp * vp) := by
    intro e he
    rw [allCells_eq hC, List.mem_flatMap] at he
    obtain ⟨x, hx, he⟩ := he
    obtain ⟨i, hi, rfl⟩ := List.mem_map.1 he
    obtain ⟨a1, a2, a3, a4, _⟩ := border_spec hC hhp hvp hw hh hx (List.mem_range.1 hi)
    exact ⟨⟨a1, a3⟩, a2, a4⟩
  have hlist : (allCells (pinfo hp vp w h) (callsV2 (hp * vp))).map
        (fun e => (cellRegion ms e.1, cellRegion ms e.2)) =
      (joinPixels (pinfo hp vp w h) (callsV2 (hp * vp))).map (fun e =>
        ((initCtx (gval img gm) (pixels w h) (patchOf hp vp w h) (hp * vp)
            (patchTree (pinfo hp vp w h) ms)).lab e.1,
          (initCtx (gval img gm) (pixels w h) (patchOf hp vp w h) (hp * vp)
            (patchTree (pinfo hp vp w h) ms)).lab e.2)) := by
    unfold joinPixels
    rw [List.map_map]
    refine List.map_congr_left ?_
    intro e he
    obtain ⟨⟨a1, a2⟩, a3, a4⟩ := hcells e he
    have k1 := (cellRegion_eq (ms := ms) hhp hvp a1 a2).2
    have k2 := (cellRegion_eq (ms := ms) hhp hvp a3 a4).2
    simp only [Function.comp, initCtx, k1, k2]
  have hpx : ∀ e ∈ joinPixels (pinfo hp vp w h) (callsV2 (hp * vp)), e.1 ∈ pixels w h ∧ e.2 ∈ pixels w h := by
    intro e he
    have := (mem_joinPixels hC hhp hvp hw hh e.1 e.2).1 he
    exact ⟨this.1, this.2.1⟩
  have hlen : (joinPixels (pinfo hp vp w h) (callsV2 (hp * vp))).length =
      (allCells (pinfo hp vp w h) (callsV2 (hp * vp))).length := by simp [joinPixels]
  obtain ⟨W, h1, h2, h3⟩ := Connect.joinAll_good hL (fuel := fuel) (steps := 512) (le_refl _)
    (joinPixels (pinfo hp vp w h) (callsV2 (hp * vp))) hG hpx (by simp only; rw [hlen]; omega)
  refine ⟨W, ?_, ?_⟩
  · unfold mergeTrees
    simp only
    rw [hlist]; exact h1
  · have hadj : Connect.addPairs (samePatch (Adj4 w h) (patchOf hp vp w h))
        (joinPixels (pinfo hp vp w h) (callsV2 (hp * vp))) = Adj4 w h := by
      funext x y
      apply propext
      unfold Connect.addPairs samePatch
      rw [mem_joinPixels hC hhp hvp hw hh, mem_joinPixels hC hhp hvp hw hh]
      unfold Adj4
      constructor
      · rintro (h | ⟨a, b, _, c⟩ | ⟨a, b, _, c⟩)
        · exact h.1
        · exact ⟨a, b, by omega⟩
        · exact ⟨b, a, by omega⟩
      · rintro ⟨a, b, c⟩
        by_cases e : patchOf hp vp w h x = patchOf hp vp w h y
        · exact .inl ⟨⟨a, b, c⟩, e⟩
        · rcases (show ((y.1 = x.1 + 1 ∧ y.2 = x.2) ∨ (y.1 = x.1 ∧ y.2 = x.2 + 1)) ∨
              ((x.1 = y.1 + 1 ∧ x.2 = y.2) ∨ (x.1 = y.1 ∧ x.2 = y.2 + 1)) by omega) with d | d
          · exact .inr (.inl ⟨a, b, e, d⟩)
          · exact .inr (.inr ⟨b, a, fun h => e h.symm, d⟩)
    have := h2.tree hL (fuel := fuel) (by simp only at h3; rw [hlen] at h3; omega)
    rw [hadj] at this
    refine ⟨this, ?_, by simp only at h3; rw [hlen] at h3; omega⟩
    have hs := h2.done.str
    have e : (fun r => (W.F r).gray) = _ := funext hs.gray
    rw [e]; exact hs

/-- The main result about joining patches. -/
theorem merge_main (hl : layoutV2 n = some (hp, vp)) (hw : hp ≤ w) (hh : vp ≤ h)
    (hg : ∀ p ∈ pixels w h, gval img gm p < 256)
    (hT : ∀ k < n, IsComponentTree
      (Adj4 (pinfo hp vp w h k).width (pinfo hp vp w h k).height)
      (fun p => subImage img (pinfo hp vp w h k) p.1 p.2 ^^^ gm)
      (pixels (pinfo hp vp w h k).width (pinfo hp vp w h k).height)
      (Props.memTree (pinfo hp vp w h k).width (ms k)))
    {fuel : Nat} (hf : 512 * (allCells (pinfo hp vp w h) (callsV2 n)).length ≤ fuel) :
    ∃ W, mergeTrees n hp vp w h ms fuel 512 = some W ∧
      IsComponentTree (Adj4 w h) (gval img gm) (pixels w h) (mergedTree n hp vp w h ms fuel W) := by
  obtain ⟨W, h1, h2, _⟩ := merge_shape hl hw hh hg hT hf
  exact ⟨W, h1, h2⟩

end Verif.Partition
