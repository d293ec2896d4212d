import Verif.Props.LinearRecog
import Verif.Props.ThreadsMatter
import Verif.Proof.LinearLoose
import Verif.Proof.LinearExtract

/-!
# Properties C75, C77, C78: what the linear detector delivers, with and without a mask
-/

namespace Verif.Props

open Verif.Spec Verif.Recog
open Verif.Linear (Dim Mask Buf cellVal forestL extractL readShare RecL XOutL)

variable {D : Dim} {b : Buf} {s : Linear.St} {src : Nat → Nat → Nat} {mask : Mask} {gm : Nat} {cfg : Cfg}
  {lab : Nat × Nat → Nat} {g : Nat → Nat} {L : Nat → List Nat} {val : Nat → Nat → Nat}

/-- The neighbourhood of a detector. -/
def adjL (D : Dim) : Nat × Nat → Nat × Nat → Prop := if D.eight then Adj8 D.w D.h else Adj4 D.w D.h

/-- The points are, each once, the pixels of one connected component of `{val ≤ lev}`, and one of them has value
`lev`. -/
def ComponentL (D : Dim) (val : Nat → Nat → Nat) (lev : Nat) (pts : List (Nat × Nat)) : Prop :=
  pts.Nodup ∧ ∃ p₀ ∈ pixels D.w D.h, val p₀.1 p₀.2 = lev ∧
    ∀ q, q ∈ pts ↔ q ∈ pixels D.w D.h ∧ LConn (adjL D) (fun p => val p.1 p.2) lev p₀ q

/-- The smallest rectangle that holds the points. -/
structure TightRect (R : Extract.Rect) (pts : List (Nat × Nat)) : Prop where
  inside : ∀ q ∈ pts, R.left ≤ (q.1 : Int) ∧ (q.1 : Int) < R.left + R.width ∧ R.top ≤ (q.2 : Int) ∧
    (q.2 : Int) < R.top + R.height
  left : ∃ q ∈ pts, (q.1 : Int) = R.left
  right : ∃ q ∈ pts, (q.1 : Int) = R.left + R.width - 1
  top : ∃ q ∈ pts, (q.2 : Int) = R.top
  bottom : ∃ q ∈ pts, (q.2 : Int) = R.top + R.height - 1

theorem tightRect_of {bx : Linear.Box} {pts : List (Nat × Nat)} (h : bx.Tight pts) : TightRect bx.rect pts := by
  obtain ⟨h1, ⟨a, a1, a2⟩, ⟨c, c1, c2⟩, ⟨d, d1, d2⟩, ⟨e, e1, e2⟩⟩ := h
  refine ⟨fun q hq => ?_, ⟨a, a1, ?_⟩, ⟨c, c1, ?_⟩, ⟨d, d1, ?_⟩, ⟨e, e1, ?_⟩⟩
  · have := h1 q hq
    simp only [Linear.Box.rect]; omega
  all_goals simp only [Linear.Box.rect]; omega

/-! ### Recognition with any mask -/

theorem level_le (hI : LevelsOK D val) (hF : FloodedL D val s g lab L) {r : Nat} (hr : r < s.nreg) : g r ≤ 256 := by
  obtain ⟨p, hp, e⟩ := hF.tree.reg_lab r hr
  have h1 := hF.tree.lab_gray p hp
  rw [e] at h1
  have h1 : g r = val p.1 p.2 := h1
  have := hI.val_lt p.1 p.2 (mem_pixels.1 hp).1 (mem_pixels.1 hp).2
  omega

theorem rankedL (hI : LevelsOK D val) (hF : FloodedL D val s g lab L) (var : Nat → ℚ) :
    Linear.Ranked (fun r => r < s.nreg) g (ofForest (forestL s.nreg s.regs) var) := by
  refine ⟨fun r hr p hp => ?_, fun r hr => level_le hI hF hr⟩
  simp only [ofForest, forestL_reg hr] at hp
  exact hF.tree.parent_reg r hr p hp

/-- Recognition after flooding with any mask. -/
theorem recogL_any (hI : LevelsOK D val) (hF : FloodedL D val s g lab L) (cfg : Cfg) (var : Nat → ℚ) :
    ∃ out, Linear.recognize cfg D s var = some out ∧ out.reported.Nodup ∧
      (∀ r ∈ out.reported, r < s.nreg ∧ cfg.minPoint ≤ ((s.regs r).size : Int) ∧ ((s.regs r).size : Int) ≤ cfg.maxPoint ∧
        ∃ p, (s.regs r).parent = some p ∧ g r < g p ∧ g p ≤ 256) ∧
      out.pixels = (out.reported.map fun r => (s.regs r).size).sum ∧
      (¬ (0 < cfg.delta ∧ 0 ≤ cfg.nms) → cfg.dup ≤ 0 →
        ∀ r, r ∈ out.reported ↔ r < s.nreg ∧ Linear.Pass cfg (ofForest (forestL s.nreg s.regs) var) r) := by
  obtain ⟨out, e, h1, h2, h3, h4⟩ := Linear.recognizeL_loose (cfg := cfg) (rankedL hI hF var) (order := List.range s.nreg)
    List.nodup_range (fun r => List.mem_range) (fun r => by simp only [ofForest, forestL]; split <;> rfl)
    (fun r hr => by
      simp only [ofForest, forestL_reg hr, hF.gray r hr]
      exact Nat.mod_lt _ (by decide))
    (msize := D.hsize) (by
      rw [List.length_range]
      have := hF.nreg_le
      unfold Linear.Dim.hsize; omega)
  refine ⟨out, ?_, h1, fun r hr => ?_, ?_, h4⟩
  · unfold Linear.recognize
    rw [if_pos, e]
    intro r hr p hp
    exact (hF.tree.parent_reg r hr p hp).1
  · obtain ⟨k1, k2⟩ := h2 r hr
    simp only [badSize, ofForest, forestL_reg k1, Bool.or_eq_false_iff, decide_eq_false_iff_not, not_lt,
      Option.isNone_eq_false_iff, Option.isSome_iff_exists] at k2
    obtain ⟨⟨k2, k3⟩, p, k4⟩ := k2
    obtain ⟨k5, k6⟩ := hF.tree.parent_reg r k1 p k4
    exact ⟨k1, k2, k3, p, k4, k6, level_le hI hF k5⟩
  · rw [h3]
    congr 1
    refine List.map_congr_left fun r hr => ?_
    simp only [ofForest, forestL_reg (h2 r hr).1]

/-! ### How many points are delivered -/

/-- Regions with a pixel in common have different levels. -/
theorem _root_.Verif.Spec.IsComponentTree.level_inj {α ι : Type} {adj : α → α → Prop} {f : α → Nat} {px : Finset α}
    {T : RegionTree α ι} (h : IsComponentTree adj f px T) {p : α} (hp : p ∈ px) {r r' : ι} (hr : T.Under r p)
    (hr' : T.Under r' p) (e : T.gray r = T.gray r') : r = r' := by
  have h1 := h.anc_of_common hp hr hr' (le_of_eq e)
  have h2 := (h.anc_reg (h.under_reg hp hr).1 h1).2.2
  by_contra hn
  have := h2 hn
  omega

/-- All regions below level 256 together have at most 256 times as many pixels as the image. -/
theorem total_le (hF : FloodedL D val s g lab L) {l : List Nat} (hnd : l.Nodup) (hl : ∀ r ∈ l, r < s.nreg ∧ g r < 256) :
    (l.map fun r => (s.regs r).size).sum ≤ 256 * (D.w * D.h) := by
  classical
  have h1 : (l.map fun r => (s.regs r).size).sum = ∑ r ∈ l.toFinset, (s.regs r).size := by
    rw [List.sum_toFinset _ hnd]
  have h2 : ∑ r ∈ l.toFinset, (s.regs r).size
      = ∑ r ∈ l.toFinset, ∑ p ∈ pixels D.w D.h, if (treeOfL s g lab).Under r p then 1 else 0 := by
    refine Finset.sum_congr rfl fun r hr => ?_
    have := hF.tree.size_card (r := r) (hl r (List.mem_toFinset.1 hr)).1
    rw [← Finset.card_filter]; exact this
  rw [h1, h2, Finset.sum_comm]
  have h3 : ∀ p ∈ pixels D.w D.h, (∑ r ∈ l.toFinset, if (treeOfL s g lab).Under r p then 1 else 0) ≤ 256 := by
    intro p hp
    rw [← Finset.card_filter]
    have h4 : ((l.toFinset.filter fun r => (treeOfL s g lab).Under r p).image g) ⊆ Finset.range 256 := by
      intro v hv
      obtain ⟨r, hr, rfl⟩ := Finset.mem_image.1 hv
      exact Finset.mem_range.2 (hl r (List.mem_toFinset.1 (Finset.mem_filter.1 hr).1)).2
    have h5 := Finset.card_le_card h4
    rw [Finset.card_range, Finset.card_image_of_injOn] at h5
    · exact h5
    · intro r hr r' hr' e
      rw [Finset.mem_coe, Finset.mem_filter] at hr hr'
      exact hF.tree.level_inj hp hr.2 hr'.2 e
  have h6 := Finset.sum_le_card_nsmul _ _ _ h3
  have hcard : (pixels D.w D.h).card = D.w * D.h := by simp [pixels]
  rw [hcard, smul_eq_mul, Nat.mul_comm] at h6
  exact h6

/-! ### Extraction -/

/-- The record of a region. -/
structure Recorded (D : Dim) (cfg : Cfg) (gm : Nat) (s : Linear.St) (g : Nat → Nat) (lab : Nat × Nat → Nat) (x : XOutL)
    (r : Nat) (rec : RecL) : Prop where
  reg : r < s.nreg
  lev : g r < 256
  gray : rec.gray = if gm = 0 then g r else 255 - g r
  read : ∃ pts, readShare x rec = some pts ∧ pts.length = rec.size ∧ pts.Nodup ∧ TightRect rec.rect pts ∧
    ∀ q, q ∈ pts ↔ q ∈ pixels D.w D.h ∧ (treeOfL s g lab).Under r q
  min : cfg.minPoint ≤ (rec.size : Int)
  max : (rec.size : Int) ≤ cfg.maxPoint

/-- Flooding, recognition and extraction. -/
theorem extractedL (hI : LevelsOK D val) (hF : FloodedL D val s g lab L) (hc : D.w * D.h < 2 ^ 23) (cfg : Cfg) (gm : Nat)
    (var : Nat → ℚ) :
    ∃ out x, Linear.recognize cfg D s var = some out ∧ extractL gm s out = some x ∧ out.reported.Nodup ∧
      List.Forall₂ (Recorded D cfg gm s g lab x) out.reported x.recs ∧ Linear.Packed 0 x.recs out.pixels ∧
      x.msize = (out.pixels : Int) := by
  obtain ⟨out, e, h1, h2, h3, -⟩ := recogL_any hI hF cfg var
  have hlev : ∀ r ∈ out.reported, r < s.nreg ∧ g r < 256 := by
    intro r hr
    obtain ⟨k1, -, -, p, -, k2, k3⟩ := h2 r hr
    exact ⟨k1, by omega⟩
  have htot := total_le hF h1 hlev
  rw [← h3] at htot
  have hms := Linear.toI32_small (n := out.pixels) (by omega)
  obtain ⟨mem, recs, e2, f1, f2, -⟩ := Linear.extractLoop_spec (gm := gm) (s := s) (msize := (out.pixels : Int)) (L := L)
    out.reported 0 (fun _ => none) (fun r hr => by
      have hr' := (hlev r hr).1
      have h4 := hF.run r hr'
      exact ⟨h4.ne, h4.head, hF.size r hr', walk_run h4, fun p hp => by rw [hF.npts]; exact hF.range r hr' p hp⟩)
    (by rw [← h3]; simp)
  refine ⟨out, ⟨mem, out.pixels, recs⟩, e, ?_, h1, ?_, ?_, rfl⟩
  · unfold extractL
    simp only [hms]
    rw [e2]
  · rw [Nat.zero_add, ← h3] at f2
    have hle := (Linear.packed_le f2).2
    have f1' : List.Forall₂ (fun r rec => (r ∈ out.reported ∧ rec ∈ recs) ∧ Linear.RecOf gm s mem (L r) r rec)
        out.reported recs := by
      rw [List.forall₂_iff_get] at f1 ⊢
      exact ⟨f1.1, fun i a c => ⟨⟨List.get_mem _ _, List.get_mem _ _⟩, f1.2 i a c⟩⟩
    refine f1'.imp fun r rec ⟨⟨hr, hrec⟩, hR⟩ => ?_
    obtain ⟨k1, k2⟩ := hlev r hr
    have hgr : (s.regs r).gray = g r := by rw [hF.gray r k1, Nat.mod_eq_of_lt k2]
    have hs : rec.size = (s.regs r).size := by rw [hR.size, hF.size r k1]
    obtain ⟨-, m1, m2, -⟩ := h2 r hr
    refine ⟨k1, k2, by rw [hR.gray, hgr], ⟨(L r).map (posL s), ?_, ?_, hF.nodup r k1, ?_, hF.mem r k1⟩,
      by rw [hs]; exact m1, by rw [hs]; exact m2⟩
    · refine Linear.readShare_eq (by rw [List.length_map, hR.size]) (fun i hi => ?_) ?_
      · rw [List.length_map] at hi
        rw [List.getElem_map]
        exact hR.cells i hi
      · have := hle rec hrec
        show _ ≤ (out.pixels : Int)
        omega
    · rw [List.length_map, hR.size]
    · obtain ⟨bx, hb1, hb2⟩ := hR.rect
      rw [hb1]; exact tightRect_of hb2
  · rw [Nat.zero_add, ← h3] at f2; exact f2

/-- The pixels of a region are a connected component. -/
theorem componentL_of (hF : FloodedL D val s g lab L) {r : Nat} (hr : r < s.nreg) {pts : List (Nat × Nat)} (hn : pts.Nodup)
    (hm : ∀ q, q ∈ pts ↔ q ∈ pixels D.w D.h ∧ (treeOfL s g lab).Under r q) : ComponentL D val (g r) pts := by
  obtain ⟨p, hp, e⟩ := hF.tree.reg_lab r hr
  refine ⟨hn, p, hp, ?_, fun q => ?_⟩
  · have := hF.tree.lab_gray p hp
    rw [e] at this
    exact this.symm
  · rw [hm]
    refine and_congr_right fun hq => ?_
    exact hF.tree.comp r hr p hp (by unfold RegionTree.Under; rw [e]) q hq

/-- Different regions have different pixels. -/
theorem regions_differ (hF : FloodedL D val s g lab L) {r r' : Nat} (hr : r < s.nreg) (hr' : r' < s.nreg)
    (h : ∀ q ∈ pixels D.w D.h, (treeOfL s g lab).Under r q ↔ (treeOfL s g lab).Under r' q) : r = r' := by
  obtain ⟨p, hp, e⟩ := hF.tree.reg_lab r hr
  obtain ⟨p', hp', e'⟩ := hF.tree.reg_lab r' hr'
  have h1 : (treeOfL s g lab).Under r p := by unfold RegionTree.Under; rw [e]
  have h2 : (treeOfL s g lab).Under r' p' := by unfold RegionTree.Under; rw [e']
  have h3 := (hF.tree.under_reg hp ((h p hp).1 h1)).2
  have h4 := (hF.tree.under_reg hp' ((h p' hp').2 h2)).2
  have h5 := hF.tree.lab_gray p hp
  have h6 := hF.tree.lab_gray p' hp'
  rw [e] at h5
  rw [e'] at h6
  exact hF.tree.level_inj hp h1 ((h p hp).1 h1) (by rw [h5] at h4; rw [h6] at h3; omega)

/-- Two records deliver the same pixels. -/
def SamePixels (x : XOutL) (a c : RecL) : Prop :=
  ∃ l l', readShare x a = some l ∧ readShare x c = some l' ∧ ∀ q, q ∈ l ↔ q ∈ l'

/-- **C75** The linear detector on an image of less than 2²³ pixels, with any mask and any parameters: it ends, and
every record delivered can be read and holds, each once, the pixels of one connected component of a level set of the
(inverted, masked) image; its gray level, size and rectangle are exactly those of the component; size limits are
kept; no component is delivered twice; the records fill the allocated points exactly, one behind the other. -/
theorem C75_linear_extraction (hI : BytesOK D src) (h0 : b.top 0 = 0) (hc : D.w * D.h < 2 ^ 23) (cfg : Cfg)
    (var : Nat → ℚ) :
    ∃ s out x, Linear.buildTree D mask gm src b = .done s ∧ Linear.recognize cfg D s var = some out ∧
      extractL gm s out = some x ∧ x.recs.length = out.reported.length ∧
      (∀ rec ∈ x.recs, ∃ pts lev, readShare x rec = some pts ∧ pts.length = rec.size ∧
        ComponentL D (cellVal mask gm src) lev pts ∧ lev < 256 ∧ rec.gray = (if gm = 0 then lev else 255 - lev) ∧
        TightRect rec.rect pts ∧ cfg.minPoint ≤ (rec.size : Int) ∧ (rec.size : Int) ≤ cfg.maxPoint) ∧
      (x.recs.Pairwise fun a c => ¬ SamePixels x a c) ∧
      Linear.Packed 0 x.recs out.pixels ∧ x.msize = (out.pixels : Int) := by
  obtain ⟨s, g, lab, L, h1, hF⟩ := floodedL (mask := mask) (gm := gm) hI h0
  obtain ⟨out, x, h2, h3, h4, h5, h6, h7⟩ := extractedL (hI.levels mask gm) hF hc cfg gm var
  refine ⟨s, out, x, h1, h2, h3, h5.length_eq.symm, fun rec hrec => ?_, ?_, h6, h7⟩
  · obtain ⟨i, hi, rfl⟩ := List.getElem_of_mem hrec
    have hR := (List.forall₂_iff_get.1 h5).2 i (by rw [h5.length_eq]; exact hi) hi
    obtain ⟨pts, k1, k2, k3, k4, k5⟩ := hR.read
    exact ⟨pts, _, k1, k2, componentL_of hF hR.reg k3 k5, hR.lev, hR.gray, k4, hR.min, hR.max⟩
  · rw [List.pairwise_iff_getElem]
    intro i j hi hj hij ⟨l, l', e1, e2, e3⟩
    have hi' : i < out.reported.length := by rw [h5.length_eq]; exact hi
    have hj' : j < out.reported.length := by rw [h5.length_eq]; exact hj
    have hR := (List.forall₂_iff_get.1 h5).2 i hi' hi
    have hR' := (List.forall₂_iff_get.1 h5).2 j hj' hj
    obtain ⟨pts, k1, k2, k3, k4, k5⟩ := hR.read
    obtain ⟨pts', k1', k2', k3', k4', k5'⟩ := hR'.read
    rw [List.get_eq_getElem, e1] at k1
    rw [List.get_eq_getElem, e2] at k1'
    obtain rfl := Option.some.inj k1
    obtain rfl := Option.some.inj k1'
    have := regions_differ hF hR.reg hR'.reg fun q hq => by
      have a1 := k5 q
      have a2 := k5' q
      have a3 := e3 q
      tauto
    rw [List.get_eq_getElem, List.get_eq_getElem, h4.getElem_inj_iff] at this
    exact absurd this (Nat.ne_of_lt hij)

example : BytesOK dimS sampleImg ∧ bufS.top 0 = 0 ∧ dimS.w * dimS.h < 2 ^ 23 := ⟨bytesS, rfl, by decide⟩

/-! ### C77 -/

theorem component_below {val : Nat → Nat → Nat} {lev : Nat} {pts : List (Nat × Nat)} (h : ComponentL D val lev pts) :
    ∀ q ∈ pts, val q.1 q.2 ≤ lev := by
  obtain ⟨-, p, hp, e, h2⟩ := h
  intro q hq
  have h3 := ((h2 q).1 hq).2
  rcases Relation.ReflTransGen.cases_tail h3 with h4 | ⟨c, -, h5⟩
  · rw [h4, e]
  · exact h5.2.2

/-- **C77** (partial) With a mask image, no pixel whose mask byte is 0 is delivered. -/
theorem C77_mask_image_partial (hI : BytesOK D src) (h0 : b.top 0 = 0) (hc : D.w * D.h < 2 ^ 23) (m : Nat → Nat → Nat) (cfg : Cfg)
    (var : Nat → ℚ) :
    ∃ s out x, Linear.buildTree D (.image m) gm src b = .done s ∧ Linear.recognize cfg D s var = some out ∧
      extractL gm s out = some x ∧
      ∀ rec ∈ x.recs, ∃ pts, readShare x rec = some pts ∧ ∀ q ∈ pts, m q.1 q.2 ≠ 0 := by
  obtain ⟨s, out, x, h1, h2, h3, -, h4, -⟩ := C75_linear_extraction (mask := .image m) (gm := gm) hI h0 hc cfg var
  refine ⟨s, out, x, h1, h2, h3, fun rec hrec => ?_⟩
  obtain ⟨pts, lev, k1, -, k2, k3, -⟩ := h4 rec hrec
  refine ⟨pts, k1, fun q hq e => ?_⟩
  have := component_below k2 q hq
  simp only [cellVal, e] at this
  split at this <;> simp_all <;> omega

/-- **C77** (partial) With a mask value, in the bright pass, no pixel of that value is delivered. -/
theorem C77_mask_value_bright_partial (hI : BytesOK D src) (h0 : b.top 0 = 0) (hc : D.w * D.h < 2 ^ 23) (v : Nat) (cfg : Cfg)
    (var : Nat → ℚ) :
    ∃ s out x, Linear.buildTree D (.value v) 255 src b = .done s ∧ Linear.recognize cfg D s var = some out ∧
      extractL 255 s out = some x ∧
      ∀ rec ∈ x.recs, ∃ pts, readShare x rec = some pts ∧ ∀ q ∈ pts, src q.1 q.2 ≠ v := by
  obtain ⟨s, out, x, h1, h2, h3, -, h4, -⟩ := C75_linear_extraction (mask := .value v) (gm := 255) hI h0 hc cfg var
  refine ⟨s, out, x, h1, h2, h3, fun rec hrec => ?_⟩
  obtain ⟨pts, lev, k1, -, k2, k3, -⟩ := h4 rec hrec
  refine ⟨pts, k1, fun q hq e => ?_⟩
  have := component_below k2 q hq
  simp [cellVal, e] at this
  omega

end Verif.Props
