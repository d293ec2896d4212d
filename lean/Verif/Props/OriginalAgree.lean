import Verif.Props.Original
import Verif.Props.LinearMask
import Verif.Proof.OriginalShift

/-!
# Properties C83–C85: the original detector and the others; masked pixels; mask rectangles
-/

namespace Verif.Props

open Verif.Spec Verif.Recog
open Verif.Linear (Mask XOutL extractL)
open Verif.Original (Det RecO RecordedO MaskOK passVal)

variable {W H : Nat} {eight : Bool} {cfg : Cfg} {mask : Mask} {src src' : Nat → Nat → Nat} {gm : Nat} {d : Det}

/-- The pixels `S` are delivered with gray level `gray` in some record. -/
def DeliveredR (recs : List RecO) (S : Finset (Nat × Nat)) (gray : Nat) : Prop :=
  ∃ rec ∈ recs, rec.gray = gray ∧ ∀ q : Nat × Nat, q ∈ S ↔ ((q.1 : Int), (q.2 : Int)) ∈ rec.points

/-- The record with all points moved by `(u, v)`; its rectangle, unless it is empty, as well. -/
def movedBy (u v : Nat) (r : RecO) : RecO :=
  ⟨r.gray, r.size, r.points.map fun p => (p.1 + u, p.2 + v),
    if r.rect.width = 0 ∧ r.rect.height = 0 then r.rect else ⟨r.rect.left + u, r.rect.top + v, r.rect.width, r.rect.height⟩⟩

theorem movedBy_eq (u v : Nat) : movedBy u v = RecO.move (u : Int) v := by
  funext r
  unfold movedBy RecO.move Original.moveRect Rectangle.Rect.empty
  by_cases h : r.rect.width = 0 ∧ r.rect.height = 0
  · rw [if_pos h, if_pos (by simp [h.1, h.2])]
  · rw [if_neg h, if_neg fun k => h ?_]
    rw [Bool.and_eq_true, decide_eq_true_iff, decide_eq_true_iff] at k
    exact ⟨k.1.symm, k.2.symm⟩

theorem kept_null : keptPx W H .null src = pixels W H := by
  unfold keptPx LeftIn; simp

theorem adjIn_null : AdjIn eight W H (pixels W H) = if eight then Adj8 W H else Adj4 W H := by
  funext p q
  unfold AdjIn
  cases eight
  · exact propext ⟨fun h => h.2.2, fun h => ⟨h.1, h.2.1, h⟩⟩
  · exact propext ⟨fun h => h.2.2, fun h => ⟨h.1, h.2.1, h⟩⟩

/-- A region without parent has all pixels. -/
theorem root_all {ι : Type} {T : RegionTree (Nat × Nat) ι} {val : Nat × Nat → Nat} (hW : 1 ≤ W) (hH : 1 ≤ H)
    (hT : IsComponentTree (if eight then Adj8 W H else Adj4 W H) val (pixels W H) T) {r : ι} (hr : T.isReg r)
    (hp : T.parent r = none) : T.size r = W * H := by
  have hcard : (pixels W H).card = W * H := by simp [pixels]
  have h48 : ∀ p q, Adj4 W H p q → (if eight then Adj8 W H else Adj4 W H) p q := by
    intro p q h
    cases eight
    · exact h
    · obtain ⟨h1, h2, h3⟩ := h
      refine ⟨h1, h2, ?_, by omega, by omega, by omega, by omega⟩
      rintro rfl
      omega
  obtain ⟨r', h1, h2, h3, h4⟩ := hT.root
    (fun a b hab => by cases eight <;> exact ⟨hab.1, hab.2.1⟩)
    (fun a b hab => by
      cases eight
      · exact adj4_symm _ _ hab
      · obtain ⟨k1, k2, k3, k4⟩ := hab
        exact ⟨k2, k1, fun e => k3 e.symm, by omega⟩)
    (s := (0, 0)) (mem_pixels.2 ⟨hW, hH⟩)
    (fun p hp => Relation.ReflTransGen.mono (fun a b h => h48 a b h) _ _ (grid_connected p hp))
  obtain rfl := h3 r hr hp
  rw [hT.size_eq r hr (pixels W H) fun p => ⟨fun hp => ⟨hp, h4 p hp⟩, fun h => h.1⟩, hcard]

/-- If the region of all pixels is too large, admitted and selected regions are the same. -/
theorem admitted_selected {ι : Type} {T : RegionTree (Nat × Nat) ι} {val : Nat × Nat → Nat} (hW : 1 ≤ W) (hH : 1 ≤ H)
    (hT : IsComponentTree (if eight then Adj8 W H else Adj4 W H) val (pixels W H) T) (hde : 1 ≤ cfg.delta)
    (hmax : cfg.maxPoint < ((W * H : Nat) : Int)) : Admitted T (limits cfg) = Selected T (limits cfg) := by
  have hd : 0 < (limits cfg).delta := by show 0 < cfg.delta; omega
  funext r
  refine propext ⟨fun h => ⟨h.reg, h.stable hd, h.min, h.max, fun hp => ?_, h.nms hd⟩,
    fun h => ⟨h.reg, fun _ => h.stable, h.min, h.max, fun _ => h.nms⟩⟩
  have h1 := root_all hW hH hT h.reg hp
  have h2 : (T.size r : Int) ≤ cfg.maxPoint := h.max
  rw [h1] at h2
  omega

theorem Result.cand {α ι : Type} {T : RegionTree α ι} {c c' : ι → Prop} {out : Recognized ι} {arr : List ι}
    {gs : List (List ι × ι)} (h : Result T cfg c out arr gs) (e : c = c') : Result T cfg c' out arr gs := e ▸ h

/-- What is delivered is what recognition reports. -/
theorem deliveredR_iff {T : RegionTree (Nat × Nat) Nat} {K : Finset (Nat × Nat)} {l : List Nat} {recs : List RecO}
    (hg : gm = 0 ∨ gm = 255) (hT : ∀ r, T.isReg r → T.gray r < 256) (h : List.Forall₂ (RecordedO K T gm) l recs)
    (S : Finset (Nat × Nat)) (lev : Nat) (hlev : lev < 256) :
    DeliveredR recs S (lev ^^^ gm) ↔ Delivered K T l S lev := by
  obtain ⟨h1, h2⟩ := List.forall₂_iff_get.1 h
  have inj : Function.Injective Original.toInt := by
    intro a b e
    simp only [Original.toInt, Prod.mk.injEq, Nat.cast_inj] at e
    exact Prod.ext e.1 e.2
  have hgray : ∀ r rec, RecordedO K T gm r rec → (rec.gray = ((lev ^^^ gm : Nat) : Int) ↔ T.gray r = lev) := by
    intro r rec hR
    have h3 := hT r hR.reg
    rw [hR.gray]
    rcases hg with rfl | rfl
    · simp
    · rw [FloodMem.xor_255 _ hlev, if_neg (by decide)]
      omega
  have hpts : ∀ r rec, RecordedO K T gm r rec → ∀ q : Nat × Nat, ((q.1 : Int), (q.2 : Int)) ∈ rec.points ↔ q ∈ K ∧ T.Under r q := by
    intro r rec hR q
    obtain ⟨pts, k1, -, -, k4, -⟩ := hR.points
    rw [k1, show ((q.1 : Int), (q.2 : Int)) = Original.toInt q from rfl, List.mem_map_of_injective inj, k4]
  constructor
  · rintro ⟨rec, hrec, hgr, k⟩
    obtain ⟨i, hi, rfl⟩ := List.getElem_of_mem hrec
    have hR := h2 i (by omega) hi
    exact ⟨_, List.get_mem _ _, (hgray _ _ hR).1 hgr, fun q => (k q).trans (hpts _ _ hR q)⟩
  · rintro ⟨r, hr, hgr, k⟩
    obtain ⟨i, hi, rfl⟩ := List.getElem_of_mem hr
    have hR := h2 i hi (by omega)
    exact ⟨_, List.get_mem _ _, (hgray _ _ hR).2 hgr, fun q => (k q).trans (hpts _ _ hR q).symm⟩

theorem passVal_xor (hg : gm = 0 ∨ gm = 255) {v : Nat} (hv : v < 256) : (if gm = 0 then v else 255 - v) = v ^^^ gm := by
  rcases hg with rfl | rfl
  · simp
  · rw [FloodMem.xor_255 _ hv]; rfl

/-- The original detector against any other that reports the selected regions of a component tree. -/
theorem agree_original {ι : Type} {T' : RegionTree (Nat × Nat) ι} {out' : Recognized ι} {arr' : List ι}
    {gs' : List (List ι × ι)} (hW : 1 ≤ W) (hH : 1 ≤ H) (hsrc : ∀ x y, x < W → y < H → src x y < 256)
    (hdet : d.nreg = 0 ∨ d.stackSize = W * H) (hg : gm = 0 ∨ gm = 255)
    (h32 : Rounding cfg.r32) (h64 : Rounding cfg.r64) (hst : -1 ≤ cfg.stable) (hde : 1 ≤ cfg.delta)
    (hd : cfg.dup < cfg.r64 (2 / 5)) (hmax : cfg.maxPoint < ((W * H : Nat) : Int))
    (hT' : IsComponentTree (if eight then Adj8 W H else Adj4 W H) (fun p => src p.1 p.2 ^^^ gm) (pixels W H) T')
    (hR' : Result T' cfg (Selected T' (limits cfg)) out' arr' gs') :
    ∃ d' dark bright, Original.extract cfg true true d W H eight .null src = some (d', dark, bright) ∧
      (if gm = 0 then dark else bright).length = out'.reported.length ∧
      ∀ S lev, lev < 256 → (DeliveredR (if gm = 0 then dark else bright) S (lev ^^^ gm) ↔
        Delivered (pixels W H) T' out'.reported S lev) := by
  have hcard : (keptPx W H .null src).card = W * H := by rw [kept_null]; simp [pixels]
  have hd' : cfg.dup < cfg.r64 (3 / 5) := lt_of_lt_of_le hd (h64.mono _ _ (by norm_num))
  obtain ⟨d', dark, bright, e, -, h1, h2⟩ := extracted (mask := .null) hW hH trivial hsrc (by rw [hcard]; exact hdet) cfg true true eight
  have key : ∀ (val : Nat × Nat → Nat) (recs : List RecO), (∀ p ∈ pixels W H, val p = src p.1 p.2 ^^^ gm) →
      (∃ T out, DeliveredO cfg W H eight (keptPx W H .null src) val gm T out recs) →
      recs.length = out'.reported.length ∧ ∀ S lev, lev < 256 → (DeliveredR recs S (lev ^^^ gm) ↔
        Delivered (pixels W H) T' out'.reported S lev) := by
    rintro val recs hval ⟨T, out, hD⟩
    rw [kept_null] at hD
    obtain ⟨arr, gs, hR⟩ := hD.groups h32 h64 hst hd'
    have hT := hD.tree
    rw [adjIn_null] at hT
    have hR := hR.cand (admitted_selected hW hH hT hde hmax)
    have hx : ∀ p ∈ pixels W H, src p.1 p.2 ^^^ gm < 256 := by
      intro p hp
      rw [mem_pixels] at hp
      exact Nat.xor_lt_two_pow (n := 8) (hsrc _ _ hp.1 hp.2) (by rcases hg with rfl | rfl <;> decide)
    have hT2 : IsComponentTree (if eight then Adj8 W H else Adj4 W H) (fun p => src p.1 p.2 ^^^ gm) (pixels W H) T :=
      hT.values (fun p hp => (hval p hp).symm) fun p q hpq => by cases eight <;> exact ⟨hpq.1, hpq.2.1⟩
    obtain ⟨f1, -, f3⟩ := same_report hT2 hT' hx ⟨(0, 0), mem_pixels.2 ⟨hW, hH⟩⟩ h32 h64 hd hR hR'
    refine ⟨hD.recs.length_eq.symm.trans f1, fun S lev hlev => ?_⟩
    rw [deliveredR_iff hg (hT2.ok hx).gray_lt hD.recs S lev hlev, f3]
  refine ⟨d', dark, bright, e, ?_⟩
  have hb : ∀ p ∈ pixels W H, src p.1 p.2 < 256 := by
    intro p hp; rw [mem_pixels] at hp; exact hsrc _ _ hp.1 hp.2
  rcases hg with rfl | rfl
  · exact key _ _ (fun p hp => passVal_xor (.inl rfl) (hb p hp)) h1
  · exact key _ _ (fun p hp => passVal_xor (.inr rfl) (hb p hp)) h2

/-- **C83** (partial) Without a mask, with a duplicate threshold below 2/5, `delta` positive and a largest region size
below the size of the image: the original detector in 4-neighbour mode delivers the same regions, with the same gray
levels, as V2 and V1 report with any number of threads.  (The full property: for every configuration.) -/
theorem C83_agrees_partial {T : RegionTree (Nat × Nat) (Nat × Nat)} {out : Recognized (Nat × Nat)}
    (hI : ImageOK W H src gm) (hg : gm = 0 ∨ gm = 255) (hc : W * H < 2 ^ 31)
    (hdet : d.nreg = 0 ∨ d.stackSize = W * H)
    (h32 : Rounding cfg.r32) (h64 : Rounding cfg.r64) (hst : -1 ≤ cfg.stable) (hde : 1 ≤ cfg.delta)
    (hd : cfg.dup < cfg.r64 (2 / 5)) (hmax : cfg.maxPoint < ((W * H : Nat) : Int)) (hD : Detected cfg W H src gm T out) :
    ∃ d' dark bright, Original.extract cfg true true d W H false .null src = some (d', dark, bright) ∧
      (if gm = 0 then dark else bright).length = out.reported.length ∧
      ∀ S lev, lev < 256 → (DeliveredR (if gm = 0 then dark else bright) S (lev ^^^ gm) ↔
        Delivered (pixels W H) T out.reported S lev) := by
  have hd' : cfg.dup < cfg.r64 (3 / 5) := lt_of_lt_of_le hd (h64.mono _ _ (by norm_num))
  obtain ⟨k1, arr, gs, k2⟩ := hD.result hI hc h32 h64 hst hde hd'
  exact agree_original (eight := false) hI.w_pos hI.h_pos hI.img_lt hdet hg h32 h64 hst hde hd hmax k1 k2

/-- **C83** (partial) Under the same conditions, in both neighbour modes: the original detector delivers the same regions
as the linear detector. -/
theorem C83_agrees_linear_partial {b : Linear.Buf} (var : Nat → ℚ) (hW : 1 ≤ W) (hH : 1 ≤ H)
    (hsrc : ∀ x y, x < W → y < H → src x y < 256) (hg : gm = 0 ∨ gm = 255) (hc : W * H < 2 ^ 23) (h0 : b.top 0 = 0)
    (hdet : d.nreg = 0 ∨ d.stackSize = W * H)
    (h32 : Rounding cfg.r32) (h64 : Rounding cfg.r64) (hst : -1 ≤ cfg.stable) (hde : 1 ≤ cfg.delta)
    (hd : cfg.dup < cfg.r64 (2 / 5)) (hmax : cfg.maxPoint < ((W * H : Nat) : Int)) (eight : Bool) :
    ∃ d' dark bright s outL x, Original.extract cfg true true d W H eight .null src = some (d', dark, bright) ∧
      Linear.buildTree { w := W, h := H, eight := eight } .null gm src b = .done s ∧
      Linear.recognize cfg { w := W, h := H, eight := eight } s var = some outL ∧ extractL gm s outL = some x ∧
      (if gm = 0 then dark else bright).length = x.recs.length ∧
      ∀ S gray, gray < 256 → (DeliveredR (if gm = 0 then dark else bright) S gray ↔ DeliveredL x S gray) := by
  have hB : BytesOK { w := W, h := H, eight := eight } src := ⟨hW, hH, hsrc⟩
  have hx : ∀ v, v < 256 → (if gm = 0 then v else 255 - v) = v ^^^ gm := fun v hv => passVal_xor hg hv
  have hgm : gm < 256 := by rcases hg with rfl | rfl <;> decide
  have hv : ∀ x y, x < W → y < H → Linear.cellVal .null gm src x y = src x y ^^^ gm := fun x y hx' hy =>
    hx _ (hsrc x y hx' hy)
  have hU : Unmasked { w := W, h := H, eight := eight } .null gm src := by
    intro x y hx hy
    rw [hv x y hx hy]; exact Nat.xor_lt_two_pow (n := 8) (hsrc _ _ hx hy) hgm
  obtain ⟨s, g, lab, L, h1, hF⟩ := floodedL (mask := .null) (gm := gm) hB h0
  obtain ⟨outL, x, h2, h3, -, h4, -⟩ := extractedL (hB.levels .null gm) hF hc cfg gm var
  obtain ⟨outL', arr', gs', e1, e2⟩ := result_linear (cfg := cfg) hU hF (by show W * H < _; omega) var h32 h64 hst hde
  obtain rfl := Option.some.inj (h2.symm.trans e1)
  obtain ⟨hT, hu, hgr⟩ := treeL_of hU hF
  have hT' : IsComponentTree (if eight then Adj8 W H else Adj4 W H) (fun p => src p.1 p.2 ^^^ gm) (pixels W H) (treeL s lab) := by
    refine IsComponentTree.values hT (fun p hp => ?_) fun p q hpq => by cases eight <;> exact ⟨hpq.1, hpq.2.1⟩
    rw [mem_pixels] at hp; exact (hv _ _ hp.1 hp.2).symm
  obtain ⟨d', dark, bright, f1, f2, f3⟩ := agree_original hW hH hsrc hdet hg h32 h64 hst hde hd hmax hT' e2
  refine ⟨d', dark, bright, s, outL, x, f1, h1, h2, h3, f2.trans h4.length_eq, fun S gray hgray => ?_⟩
  have f4 := f3 S (gray ^^^ gm) (Nat.xor_lt_two_pow (n := 8) hgray hgm)
  rw [Nat.xor_assoc, Nat.xor_self, Nat.xor_zero] at f4
  rw [f4, deliveredL_iff h4]
  have inj : ∀ r ∈ outL.reported, ((if gm = 0 then g r else 255 - g r) = gray ↔ (treeL s lab).gray r = gray ^^^ gm) := by
    intro r hr
    obtain ⟨i, hi, rfl⟩ := List.getElem_of_mem hr
    have hR := (List.forall₂_iff_get.1 h4).2 i hi (by rw [← h4.length_eq]; exact hi)
    have a1 : outL.reported[i] < s.nreg := hR.reg
    have e : (treeL s lab).gray outL.reported[i] = g outL.reported[i] := by
      show (Linear.forestL s.nreg s.regs _).gray = _
      rw [forestL_reg a1]; exact hgr _ a1
    rw [hx (g outL.reported[i]) hR.lev, e]
    show g outL.reported[i] ^^^ gm = gray ↔ _
    constructor
    · rintro rfl; rw [Nat.xor_assoc, Nat.xor_self, Nat.xor_zero]
    · intro h'; rw [h', Nat.xor_assoc, Nat.xor_self, Nat.xor_zero]
  constructor
  · rintro ⟨r, hr, a1, a2⟩
    exact ⟨r, hr, (inj r hr).2 a1, fun q => (a2 q).trans (and_congr_right fun hq => hu r q hq)⟩
  · rintro ⟨r, hr, a1, a2⟩
    exact ⟨r, hr, (inj r hr).1 a1, fun q => (a2 q).trans (and_congr_right fun hq => (hu r q hq).symm)⟩

/-- V1 and V2 report no region with all pixels of the image. -/
theorem never_all {T : RegionTree (Nat × Nat) (Nat × Nat)} {out : Recognized (Nat × Nat)}
    (hI : ImageOK W H src gm) (hc : W * H < 2 ^ 31) (h32 : Rounding cfg.r32) (h64 : Rounding cfg.r64)
    (hst : -1 ≤ cfg.stable) (hde : 1 ≤ cfg.delta) (hd : cfg.dup < cfg.r64 (3 / 5)) (hD : Detected cfg W H src gm T out)
    (lev : Nat) : ¬ Delivered (pixels W H) T out.reported (pixels W H) lev := by
  obtain ⟨hT, arr, gs, hR⟩ := hD.result hI hc h32 h64 hst hde hd
  rintro ⟨r, hr, -, h⟩
  have hS := (hR.mem r).1 (hR.sub r hr)
  obtain ⟨p, hp⟩ := Option.ne_none_iff_exists'.1 hS.parent
  have h1 := hT.size_lt hS.reg hp
  obtain ⟨hpr, -⟩ := hT.parent_reg r hS.reg p hp
  have h2 := hT.size_eq r hS.reg (pixels W H) h
  classical
  rw [hT.size_card hpr, h2] at h1
  exact absurd (Finset.card_filter_le (pixels W H) fun q => T.Under p q) (by omega)

/-- Regions of up to two pixels. -/
def wholeCfg : Cfg := { delta := 1, minPoint := 1, maxPoint := 2, stable := 1, nms := 0, dup := 0, r32 := id, r64 := id }

theorem whole_run : ((Original.extract wholeCfg true true newDet 2 1 false .null fun _ _ => 9).map
    fun o => (o.2.1.map fun (r : RecO) => (r.gray, r.points))) = Option.some [(9, [(0, 0), (1, 0)])] := by
  decide +kernel

theorem whole_record {R : Option (Det × List RecO × List RecO)} {g : Int} {l : List (Int × Int)}
    (h : (R.map fun o => (o.2.1.map fun (r : RecO) => (r.gray, r.points))) = Option.some [(g, l)]) :
    ∃ d' dark bright, R = Option.some (d', dark, bright) ∧ ∃ rec ∈ dark, rec.gray = g ∧ rec.points = l := by
  obtain ⟨⟨d', dark, bright⟩, rfl, h'⟩ := Option.map_eq_some_iff.1 h
  obtain ⟨r, l', e, h, -⟩ := List.map_eq_cons_iff.1 h'
  exact ⟨d', dark, bright, rfl, r, by rw [show dark = r :: l' from e]; simp, (Prod.mk.inj h).1, (Prod.mk.inj h).2⟩

/-- **C83** is false of the code if the largest region size is not below the size of the image: on a uniform image of two
pixels the original detector delivers the region of all pixels, V1 and V2 do not. -/
theorem C83_whole_image {T : RegionTree (Nat × Nat) (Nat × Nat)} {out : Recognized (Nat × Nat)}
    (hD : Detected wholeCfg 2 1 (fun _ _ => 9) 0 T out) : ∃ d' dark bright,
    Original.extract wholeCfg true true newDet 2 1 false .null (fun _ _ => 9) = some (d', dark, bright) ∧
      DeliveredR dark (pixels 2 1) 9 ∧ ¬ Delivered (pixels 2 1) T out.reported (pixels 2 1) 9 := by
  obtain ⟨d', dark, bright, h1, rec, h2, h3, h4⟩ := whole_record whole_run
  refine ⟨d', dark, bright, h1, ⟨rec, h2, h3, fun q => ?_⟩, never_all ⟨by decide, by decide, fun _ _ _ _ => by decide, by decide⟩
    (by decide) rounding_id rounding_id (by norm_num [wholeCfg]) (by decide) (by norm_num [wholeCfg]) hD 9⟩
  rw [h4, mem_pixels]
  simp only [List.mem_cons, Prod.mk.injEq, List.not_mem_nil, or_false]
  omega

/-- There is such a run of V2. -/
example : ∃ T out, Detected wholeCfg 2 1 (fun _ _ => 9) 0 T out := by
  have hI : ImageOK 2 1 (fun _ _ => 9) 0 := ⟨by decide, by decide, fun _ _ _ _ => by decide, by decide⟩
  have hst : -1 ≤ wholeCfg.stable := by norm_num [wholeCfg]
  obtain ⟨ms₁, h2⟩ := patchTrees_exist (n := 1) (hp := 1) (vp := 1) rfl (by decide) (by decide) hI (by decide) (by decide)
  obtain ⟨W₁, out₁, arr₁, gs₁, b1, b2, b3, b4⟩ := C23_image_serial (cfg := wholeCfg) (msize := 0) (exceed := 0) h2 (le_refl _)
    (fun _ => 0) rounding_id rounding_id hst (by decide)
  exact ⟨_, out₁, .one _ h2 (le_refl _) b1 b3⟩

/-- A configuration and a new detector as C83 asks. -/
example : (newDet.nreg = 0 ∨ newDet.stackSize = 3 * 2) ∧ -1 ≤ sampleCfg.stable ∧ 1 ≤ sampleCfg.delta ∧
    sampleCfg.dup < sampleCfg.r64 (2 / 5) ∧ { sampleCfg with maxPoint := 3 }.maxPoint < ((3 * 2 : Nat) : Int) := by
  refine ⟨.inl rfl, ?_, ?_, ?_, ?_⟩ <;> norm_num [sampleCfg]

/-! ### C84 -/

theorem allocate_congr (hW : 1 ≤ W) (hH : 1 ≤ H) (hm : MaskOK W H mask src)
    (hK : keptPx W H mask src' = keptPx W H mask src) (hv : ∀ p ∈ keptPx W H mask src, src' p.1 p.2 = src p.1 p.2) (d : Det)
    (eight : Bool) : Original.allocate d W H eight mask src' = Original.allocate d W H eight mask src := by
  have hm' : MaskOK W H mask src' := by
    unfold MaskOK at hm ⊢
    cases mask with
    | null => trivial
    | rect l t w h => exact hm
    | image m => rw [hK]; exact hm
    | value v => rw [hK]; exact hm
  have hkeep : ∀ x y, x < W → y < H → Original.keep mask src' x y = Original.keep mask src x y := by
    intro x y hx hy
    cases mask with
    | null => rfl
    | rect l t w h => rfl
    | image m => rfl
    | value v =>
      have : ((x, y) ∈ keptPx W H (.value v) src' ↔ (x, y) ∈ keptPx W H (.value v) src) := by rw [hK]
      rw [mem_keptPx, mem_keptPx] at this
      simp only [hx, hy, LeftIn, true_and] at this
      unfold Original.keep
      exact decide_eq_decide.2 this
  have hact : Original.active W H mask src' = Original.active W H mask src := by
    unfold Original.active
    cases mask with
    | null => rfl
    | rect l t w h => rfl
    | image m => rfl
    | value v =>
      dsimp only
      unfold Original.bounding
      rw [List.filter_congr (q := fun p => Original.keep (.value v) src p.1 p.2)]
      intro p hp
      have hp := Original.mem_scan.1 hp
      exact hkeep _ _ hp.1 hp.2
  obtain ⟨A, hA⟩ := Original.active_some hm
  obtain ⟨h1, h2, h3⟩ := Original.active_spec hW hH hA
  have himg : Original.tempImage A (Original.keep mask src') src' = Original.tempImage A (Original.keep mask src) src := by
    funext i
    unfold Original.tempImage
    dsimp only
    by_cases hb : 1 ≤ i / (A.w + 2) ∧ i / (A.w + 2) ≤ A.h ∧ 1 ≤ i % (A.w + 2) ∧ i % (A.w + 2) ≤ A.w
    · rw [if_pos hb, if_pos hb, hkeep _ _ (by omega) (by omega)]
      by_cases hk : Original.keep mask src (A.left + i % (A.w + 2) - 1) (A.top + i / (A.w + 2) - 1) = true
      · rw [if_pos hk, if_pos hk]
        have := hv (A.left + i % (A.w + 2) - 1, A.top + i / (A.w + 2) - 1) ((h1 _).2 ⟨⟨by dsimp only; omega, by dsimp only; omega, by dsimp only; omega, by dsimp only; omega⟩, hk⟩)
        exact_mod_cast this
      · rw [if_neg hk, if_neg hk]
    · rw [if_neg hb, if_neg hb]
  unfold Original.allocate
  rw [hact, hA]
  dsimp only
  rw [himg]

/-- **C84** What is delivered depends only on the pixels that the mask leaves in: images that agree on them, and of which
the same pixels are left in, give the same records. -/
theorem C84_masked_pixels_irrelevant (hW : 1 ≤ W) (hH : 1 ≤ H) (hm : MaskOK W H mask src)
    (hK : keptPx W H mask src' = keptPx W H mask src) (hv : ∀ p ∈ keptPx W H mask src, src' p.1 p.2 = src p.1 p.2)
    (cfg : Cfg) (fm fb eight : Bool) (d : Det) :
    Original.extract cfg fm fb d W H eight mask src' = Original.extract cfg fm fb d W H eight mask src := by
  unfold Original.extract
  rw [allocate_congr hW hH hm hK hv]

/-- **C84** No masked pixel is delivered. -/
theorem C84_no_masked_pixel (hW : 1 ≤ W) (hH : 1 ≤ H) (hm : MaskOK W H mask src)
    (hsrc : ∀ x y, x < W → y < H → src x y < 256) (hd : d.nreg = 0 ∨ d.stackSize = (keptPx W H mask src).card)
    (cfg : Cfg) (fm fb eight : Bool) :
    ∃ d' dark bright, Original.extract cfg fm fb d W H eight mask src = some (d', dark, bright) ∧
      ∀ rec, rec ∈ dark ∨ rec ∈ bright → ∀ q ∈ rec.points, ∃ p : Nat × Nat, q = ((p.1 : Int), (p.2 : Int)) ∧
        p.1 < W ∧ p.2 < H ∧ LeftIn mask src p := by
  obtain ⟨d', dark, bright, e, h1, -, h2, -⟩ := C82_records hW hH hm hsrc hd cfg fm fb eight
  have key : ∀ {val : Nat × Nat → Nat} {gm : Nat} {recs : List RecO},
      ExactO cfg eight W H (keptPx W H mask src) val gm recs → ∀ rec ∈ recs, ∀ q ∈ rec.points,
      ∃ p : Nat × Nat, q = ((p.1 : Int), (p.2 : Int)) ∧ p.1 < W ∧ p.2 < H ∧ LeftIn mask src p := by
    intro val gm recs h rec hrec q hq
    obtain ⟨pts, lev, k1, -, ⟨-, p₀, -, -, k2⟩, -⟩ := h.each rec hrec
    rw [k1, List.mem_map] at hq
    obtain ⟨p, hp, rfl⟩ := hq
    have := mem_keptPx.1 ((k2 p).1 hp).1
    exact ⟨p, rfl, this.1.1, this.1.2, this.2⟩
  exact ⟨d', dark, bright, e, fun rec hr => hr.elim (key h1 rec) (key h2 rec)⟩

/-- **C84** If a mask image or a mask value leaves no pixel in, there is no result: the code goes on with a rectangle that
does not exist. -/
theorem C84_empty_mask (hW : 1 ≤ W) (hmask : (∃ m, mask = .image m) ∨ ∃ v, mask = .value v)
    (hK : ∀ p : Nat × Nat, p.1 < W → p.2 < H → ¬ LeftIn mask src p) (cfg : Cfg) (fm fb eight : Bool) (d : Det) :
    Original.extract cfg fm fb d W H eight mask src = none := by
  have hb : Original.bounding W H (Original.keep mask src) = none := by
    unfold Original.bounding
    have : (Original.scan W H).filter (fun p => Original.keep mask src p.1 p.2) = [] := by
      rw [List.filter_eq_nil_iff]
      intro p hp
      have hp := Original.mem_scan.1 hp
      have h := hK p hp.1 hp.2
      rcases hmask with ⟨m, rfl⟩ | ⟨v, rfl⟩
      · simpa [LeftIn, Original.keep] using h
      · simpa [LeftIn, Original.keep] using h
    rw [this]
    exact if_neg fun h => absurd (show W ≤ 0 from h.1) (by omega)
  have ha : Original.active W H mask src = none := by
    unfold Original.active
    rcases hmask with ⟨m, rfl⟩ | ⟨v, rfl⟩
    · exact hb
    · exact hb
  unfold Original.extract Original.allocate
  rw [ha]

/-- A mask value that all pixels have. -/
example : ∀ p : Nat × Nat, p.1 < 2 → p.2 < 1 → ¬ LeftIn (.value 9) (fun _ _ => 9) p := by
  intro p _ _ h
  exact h rfl

/-- **C85** Extracting with a mask rectangle in the image is extracting from that part of the image, moved back: the same
records in the same order, with the same gray levels and sizes, every point and every bounding rectangle moved by the
corner of the rectangle. -/
theorem C85_mask_rectangle_is_crop {l t w h : Nat} (hl : l + w ≤ W) (ht : t + h ≤ H) (cfg : Cfg) (fm fb eight : Bool) (d : Det) :
    Original.extract cfg fm fb d W H eight (.rect l t w h) src =
      (Original.extract cfg fm fb d w h eight .null fun x y => src (l + x) (t + y)).map
        fun o => (o.1, o.2.1.map (movedBy l t), o.2.2.map (movedBy l t)) := by
  rw [Original.extract_move (Original.allocate_crop d hl ht eight src), movedBy_eq]

/-- A rectangle of 2×2 pixels in an image of 3×2 pixels. -/
example : 1 + 2 ≤ 3 ∧ 0 + 2 ≤ 2 := by decide

/-- The sample with the masked pixel changed. -/
example : keptPx 3 2 sampleMask (fun x y => if x = 1 ∧ y = 0 then 77 else sampleImg x y) = keptPx 3 2 sampleMask sampleImg ∧
    ∀ p ∈ keptPx 3 2 sampleMask sampleImg, (if p.1 = 1 ∧ p.2 = 0 then 77 else sampleImg p.1 p.2) = sampleImg p.1 p.2 := by
  decide +kernel

end Verif.Props
