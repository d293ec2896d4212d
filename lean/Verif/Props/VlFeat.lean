import Verif.Proof.VlFeatGrid
import Verif.Proof.VlFeatRecog
import Verif.Proof.ReportSame
import Verif.Proof.Same
import Verif.Proof.RecogSpec
import Verif.Proof.Process
import Verif.Spec.Interior
import Verif.Spec.Float32

/-!
# Properties C133–C137: the VLFeat detector

`pass conn4 w h img gm fromMin c junk m` is one pass of `img_vlfeat_mser` with 4 or 8 neighbours and the gray mask `gm` (0 for dark, 255 for
bright regions); `fromMin` tells whether dark regions are searched as well; `m` is what the buffers contain, `junk` the value of memory that
was never written.
-/

namespace Verif.Props

open Verif.Spec
open Verif.FloodMem (xor_255)
open Verif.VlFeat (pass Mem Cfg Rep Sorts Good treeE)
open Relation (ReflTransGen)

/-- The image is not empty, and its values are bytes. -/
structure ImageV (w h : Nat) (img : Nat → Nat → Nat) : Prop where
  wide : 1 ≤ w
  high : 1 ≤ h
  byte : ∀ x y, x < w → y < h → img x y < 256

/-- A dark pass, a bright pass after a dark one, or a bright pass alone has ended with the report `t` and the memory `m'`. -/
inductive RanV (conn4 : Bool) (w h : Nat) (img : Nat → Nat → Nat) (c : Cfg) : Nat → List Rep → Mem → Prop
  | dark {fromMin junk m t m'} (h₁ : pass conn4 w h img 0 fromMin c junk m = some (t, m')) : RanV conn4 w h img c 0 t m'
  | bright {junk m t₀ m₀ junk' t m'} (h₀ : pass conn4 w h img 0 true c junk m = some (t₀, m₀))
      (h₁ : pass conn4 w h img 255 true c junk' m₀ = some (t, m')) : RanV conn4 w h img c 255 t m'
  | only {junk m t m'} (h₁ : pass conn4 w h img 255 false c junk m = some (t, m')) : RanV conn4 w h img c 255 t m'

/-- Pixels are neighbours as configured. -/
def AdjC (conn4 : Bool) (w h : Nat) : Nat × Nat → Nat × Nat → Prop := if conn4 = true then Adj4 w h else Adj8 w h

/-- The criteria of a configuration; the limits of the size go through a fraction of the image. -/
def critV (c : Cfg) (w h : Nat) : Criteria where
  delta := c.delta
  stable := c.stable
  nms := c.nms
  dup := c.dup
  lo := c.r32 (c.r32 (c.r32 (c.minPoint : ℚ) / c.r32 ((w * h : Nat) : ℚ)) * c.r32 ((w * h : Nat) : ℚ))
  hi := c.r32 (c.ratio * c.r32 ((w * h : Nat) : ℚ))
  rnd := c.r32

section
variable {conn4 : Bool} {w h : Nat} {img : Nat → Nat → Nat} {c : Cfg} {gm : Nat} {t : List Rep} {m' : Mem}

/-- What is known of a pass whose pixels were sorted. -/
theorem passV_spec (hI : ImageV w h img) (hr : Rounding c.r32) {fromMin : Bool} {junk : Int} {m : Mem} {perm : Nat → Nat}
    (hp : VlFeat.sortPixels (w * h) (fun i => img (i % w) (i / w) ^^^ gm) gm fromMin m.perm = some perm)
    (hs : Sorts (w * h) (fun i => img (i % w) (i / w) ^^^ gm) perm) :
    ∃ t m', pass conn4 w h img gm fromMin c junk m = some (t, m') ∧ m'.perm = perm ∧
      (∃ lab, IsComponentTree (VlFeat.adj (w * h) (VlFeat.nbs conn4 w h)) (fun i => img (i % w) (i / w) ^^^ gm) (Finset.range (w * h))
        (treeE m'.er lab)) ∧ Good m'.er ∧
      ∀ lab : Nat × Nat → Nat, ∃ K : Nat → Bool, t = ((List.range m'.er.ner).filter K).map (fun j => ⟨m'.er.value j ^^^ gm, m'.er.area j⟩) ∧
        IsReport (treeE m'.er lab) (critV c w h) (fun r => r < m'.er.ner ∧ K r = true) := by
  have h0 : 0 < w * h := Nat.mul_pos hI.wide hI.high
  obtain ⟨m', e1, e2, e3, e4, e5, e6⟩ := VlFeat.process_spec (junk := junk) (VlFeat.graph (conn4 := conn4)) h0 VlFeat.connected hp hs
  have hG : Good m'.er := by
    refine ⟨fun j hj => (e4 j hj).1, fun j hj hne => ⟨?_, (e4 j hj).2 hne⟩⟩
    have h1 := (e4 j hj).2 hne
    by_contra h2
    have h3 := e5 (m'.er.parent j) j (by omega) hj
    omega
  obtain ⟨K, k1, -⟩ := VlFeat.recognize_spec (c := c) (nel := w * h) hG (fun _ : Nat × Nat => 0) hr
  refine ⟨((List.range m'.er.ner).filter K).map (fun j => ⟨m'.er.value j ^^^ gm, m'.er.area j⟩), m', ?_, e2, e3, hG, fun lab => ?_⟩
  · unfold pass
    rw [e1, Option.bind_some, k1, Option.bind_some, VlFeat.report_spec gm e6 _ fun j hj => List.mem_range.1 (List.mem_filter.1 hj).1]
    rfl
  · obtain ⟨K', k1', k2⟩ := VlFeat.recognize_spec (c := c) (nel := w * h) hG lab hr
    refine ⟨K', ?_, k2⟩
    rw [k1] at k1'
    have h1 := congrArg (Option.bind · (VlFeat.report gm m'.er)) k1'
    rw [Option.bind_some, Option.bind_some, VlFeat.report_spec gm e6 _ fun j hj => List.mem_range.1 (List.mem_filter.1 hj).1,
      VlFeat.report_spec gm e6 _ fun j hj => List.mem_range.1 (List.mem_filter.1 hj).1] at h1
    injection h1

theorem byteV (hI : ImageV w h img) {i : Nat} (hi : i < w * h) : img (i % w) (i / w) < 256 :=
  hI.byte _ _ (VlFeat.idx_of hi).1 (VlFeat.idx_of hi).2.1

theorem xorV : ∀ v < 256, v ^^^ 0 < 256 ∧ v ^^^ 255 < 256 := by decide +kernel

theorem sort_first (hI : ImageV w h img) {fromMin : Bool} (hg : gm = 0 ∨ gm = 255) (hf : gm = 0 ∨ fromMin = false) (p : Nat → Nat) :
    ∃ q, VlFeat.sortPixels (w * h) (fun i => img (i % w) (i / w) ^^^ gm) gm fromMin p = some q ∧
      Sorts (w * h) (fun i => img (i % w) (i / w) ^^^ gm) q := by
  refine VlFeat.sortPixels_first (fun i hi => ?_) hf p
  have := xorV _ (byteV hI hi)
  rcases hg with rfl | rfl
  · exact this.1
  · exact this.2

theorem sort_second (hI : ImageV w h img) {p : Nat → Nat} (hp : Sorts (w * h) (fun i => img (i % w) (i / w) ^^^ 0) p) :
    ∃ q, VlFeat.sortPixels (w * h) (fun i => img (i % w) (i / w) ^^^ 255) 255 true p = some q ∧
      Sorts (w * h) (fun i => img (i % w) (i / w) ^^^ 255) q := by
  refine VlFeat.sortPixels_second (by decide) hp (fun i hi j hj hij => ?_)
  rw [Nat.xor_zero, Nat.xor_zero] at hij
  rw [xor_255 _ (byteV hI hi), xor_255 _ (byteV hI hj)]
  omega

/-- What is known of a pass. -/
theorem RanV.spec (hI : ImageV w h img) (hr : Rounding c.r32) (hR : RanV conn4 w h img c gm t m') :
    (gm = 0 ∨ gm = 255) ∧
      (∃ lab, IsComponentTree (VlFeat.adj (w * h) (VlFeat.nbs conn4 w h)) (fun i => img (i % w) (i / w) ^^^ gm) (Finset.range (w * h))
        (treeE m'.er lab)) ∧ Good m'.er ∧
      ∀ lab : Nat × Nat → Nat, ∃ K : Nat → Bool, t = ((List.range m'.er.ner).filter K).map (fun j => ⟨m'.er.value j ^^^ gm, m'.er.area j⟩) ∧
        IsReport (treeE m'.er lab) (critV c w h) (fun r => r < m'.er.ner ∧ K r = true) := by
  cases hR with
  | @dark fromMin junk m _ _ h1 =>
    obtain ⟨q, s1, s2⟩ := sort_first (gm := 0) (fromMin := fromMin) hI (.inl rfl) (.inl rfl) m.perm
    obtain ⟨t', m'', e1, -, e3⟩ := passV_spec (conn4 := conn4) (c := c) (junk := junk) hI hr s1 s2
    rw [h1] at e1
    injection e1 with e1
    injection e1 with e1 e2
    subst e1 e2
    exact ⟨.inl rfl, e3⟩
  | @only junk m _ _ h1 =>
    obtain ⟨q, s1, s2⟩ := sort_first (gm := 255) (fromMin := false) hI (.inr rfl) (.inr rfl) m.perm
    obtain ⟨t', m'', e1, -, e3⟩ := passV_spec (conn4 := conn4) (c := c) (junk := junk) hI hr s1 s2
    rw [h1] at e1
    injection e1 with e1
    injection e1 with e1 e2
    subst e1 e2
    exact ⟨.inr rfl, e3⟩
  | @bright junk m t₀ m₀ junk' _ _ h0 h1 =>
    obtain ⟨q, s1, s2⟩ := sort_first (gm := 0) (fromMin := true) hI (.inl rfl) (.inl rfl) m.perm
    obtain ⟨t', m'', e1, e2, -⟩ := passV_spec (conn4 := conn4) (c := c) (junk := junk) hI hr s1 s2
    rw [h0] at e1
    injection e1 with e1
    injection e1 with e1 e3
    subst e1 e3
    rw [← e2] at s2
    obtain ⟨q', s3, s4⟩ := sort_second hI s2
    obtain ⟨t', m'', e1, -, e3⟩ := passV_spec (conn4 := conn4) (c := c) (junk := junk') hI hr s3 s4
    rw [h1] at e1
    injection e1 with e1
    injection e1 with e1 e2
    subst e1 e2
    exact ⟨.inr rfl, e3⟩

/-! ### C133: the pass comes to its end -/

/-- C133 for the dark pass: whatever the buffers contain and whatever value unwritten memory has, it ends. -/
theorem C133_dark_partial (hI : ImageV w h img) (hr : Rounding c.r32) (conn4 fromMin : Bool) (junk : Int) (m : Mem) :
    ∃ t m', pass conn4 w h img 0 fromMin c junk m = some (t, m') := by
  obtain ⟨q, s1, s2⟩ := sort_first (gm := 0) (fromMin := fromMin) hI (.inl rfl) (.inl rfl) m.perm
  obtain ⟨t, m', h1, -⟩ := passV_spec (conn4 := conn4) (c := c) (junk := junk) hI hr s1 s2
  exact ⟨t, m', h1⟩

/-- C133 for the bright pass alone. -/
theorem C133_only_partial (hI : ImageV w h img) (hr : Rounding c.r32) (conn4 : Bool) (junk : Int) (m : Mem) :
    ∃ t m', pass conn4 w h img 255 false c junk m = some (t, m') := by
  obtain ⟨q, s1, s2⟩ := sort_first (gm := 255) (fromMin := false) hI (.inr rfl) (.inr rfl) m.perm
  obtain ⟨t, m', h1, -⟩ := passV_spec (conn4 := conn4) (c := c) (junk := junk) hI hr s1 s2
  exact ⟨t, m', h1⟩

/-- C133 for the bright pass after the dark pass. -/
theorem C133_bright_partial (hI : ImageV w h img) (hr : Rounding c.r32) {junk : Int} {m m₀ : Mem} {t₀ : List Rep}
    (h₀ : pass conn4 w h img 0 true c junk m = some (t₀, m₀)) (junk' : Int) : ∃ t m', pass conn4 w h img 255 true c junk' m₀ = some (t, m') := by
  obtain ⟨q, s1, s2⟩ := sort_first (gm := 0) (fromMin := true) hI (.inl rfl) (.inl rfl) m.perm
  obtain ⟨t', m'', e1, e2, -⟩ := passV_spec (conn4 := conn4) (c := c) (junk := junk) hI hr s1 s2
  rw [h₀] at e1
  injection e1 with e1
  injection e1 with e1 e3
  subst e1 e3
  rw [← e2] at s2
  obtain ⟨q', s3, s4⟩ := sort_second hI s2
  obtain ⟨t, m', h1, -⟩ := passV_spec (conn4 := conn4) (c := c) (junk := junk') hI hr s3 s4
  exact ⟨t, m', h1⟩

/-! ### C134: the regions -/

theorem passGray_eq (hI : ImageV w h img) (hgm : gm = 0 ∨ gm = 255) {p : Nat × Nat} (hp : p ∈ pixels w h) :
    passGray img gm p = img p.1 p.2 ^^^ gm := by
  unfold passGray
  rcases hgm with rfl | rfl
  · rw [if_pos rfl, Nat.xor_zero]
  · rw [if_neg (by decide), xor_255 _ (hI.byte _ _ (mem_pixels.1 hp).1 (mem_pixels.1 hp).2)]

/-- The tree of a pass is the component tree of the pixels. -/
theorem RanV.tree (hI : ImageV w h img) (hr : Rounding c.r32) (hw : conn4 = true → w ≠ 2) (hR : RanV conn4 w h img c gm t m') :
    ∃ lab : Nat × Nat → Nat, IsComponentTree (AdjC conn4 w h) (passGray img gm) (pixels w h) (treeE m'.er lab) := by
  obtain ⟨hgm, ⟨lab, hT⟩, -⟩ := hR.spec hI hr
  refine ⟨fun p => lab (p.1 + p.2 * w), VlFeat.tree_pixels hw (fun p hp => ?_) hT⟩
  rw [passGray_eq hI hgm hp]
  have := mem_pixels.1 hp
  rw [VlFeat.idx_mod this.1, VlFeat.idx_div this.1]

theorem xor_back (hI : ImageV w h img) (hgm : gm = 0 ∨ gm = 255) {p : Nat × Nat} (hp : p ∈ pixels w h) :
    passGray img gm p ^^^ gm = img p.1 p.2 := by
  rw [passGray_eq hI hgm hp, Nat.xor_assoc, Nat.xor_self, Nat.xor_zero]

/-- C134, if the width is not 2 or there are 8 neighbours: a reported region has the gray level of a pixel, and its size is the number of pixels
of the connected component of that pixel up to its gray level. -/
theorem C134_regions_partial (hI : ImageV w h img) (hr : Rounding c.r32) (hw : conn4 = true → w ≠ 2) (hR : RanV conn4 w h img c gm t m')
    {r : Rep} (hrt : r ∈ t) : ∃ p ∈ pixels w h, r.gray = img p.1 p.2 ∧
      ∀ s : Finset (Nat × Nat), (∀ q, q ∈ s ↔ q ∈ pixels w h ∧ LConn (AdjC conn4 w h) (passGray img gm) (passGray img gm p) p q) → r.size = s.card := by
  obtain ⟨lab, hT⟩ := hR.tree hI hr hw
  obtain ⟨hgm, -, -, hK⟩ := hR.spec hI hr
  obtain ⟨K, k1, -⟩ := hK lab
  rw [k1] at hrt
  obtain ⟨j, hj, rfl⟩ := List.mem_map.1 hrt
  have hj := List.mem_range.1 (List.mem_filter.1 hj).1
  obtain ⟨p, hp, hpj⟩ := hT.reg_lab j hj
  have hg := hT.lab_gray p hp
  rw [hpj] at hg
  have hg' : m'.er.value j = passGray img gm p := hg
  refine ⟨p, hp, ?_, fun s hs => ?_⟩
  · dsimp only
    rw [hg', xor_back hI hgm hp]
  · refine hT.size_eq j hj s fun q => ?_
    rw [hs q]
    refine and_congr_right fun hq => ?_
    have h1 := hT.comp j hj p hp (by unfold RegionTree.Under; rw [hpj]) q hq
    rw [h1, hg]

/-! ### C135: which regions are reported -/

/-- C135, if the width is not 2 or there are 8 neighbours: in every component tree of the image the regions reported, each once, are those the
specification selects. -/
theorem C135_report_partial (hI : ImageV w h img) (hr : Rounding c.r32) (hw : conn4 = true → w ≠ 2) (hR : RanV conn4 w h img c gm t m')
    {ι : Type} {T : RegionTree (Nat × Nat) ι} (hT : IsComponentTree (AdjC conn4 w h) (passGray img gm) (pixels w h) T) :
    ∃ (K : ι → Prop) (l : List ι), IsReport T (critV c w h) K ∧ l.Nodup ∧ (∀ r, r ∈ l ↔ K r) ∧
      t = l.map fun r => ⟨T.gray r ^^^ gm, T.size r⟩ := by
  obtain ⟨lab, hT'⟩ := hR.tree hI hr hw
  obtain ⟨hgm, -, -, hK⟩ := hR.spec hI hr
  obtain ⟨K, k1, k2⟩ := hK lab
  obtain ⟨f, hS⟩ := hT.same hT' ⟨(0, 0), mem_pixels.2 ⟨hI.wide, hI.high⟩⟩
  have hC : T.Closed := fun r hr' p hp => (hT.parent_reg r hr' p hp).1
  have hsurj : ∀ j, ∃ r, j < m'.er.ner → T.isReg r ∧ f r = j := by
    intro j
    by_cases hj : j < m'.er.ner
    · obtain ⟨r, h1, h2⟩ := hS.surj j hj
      exact ⟨r, fun _ => ⟨h1, h2⟩⟩
    · exact ⟨T.lab (0, 0), fun h => absurd h hj⟩
  choose g hg using hsurj
  have hl : ∀ j ∈ (List.range m'.er.ner).filter K, j < m'.er.ner := fun j hj => List.mem_range.1 (List.mem_filter.1 hj).1
  refine ⟨_, ((List.range m'.er.ner).filter K).map g, hS.isReport hC k2, ?_, ?_, ?_⟩
  · rw [List.nodup_map_iff_inj_on (List.Nodup.filter _ List.nodup_range)]
    intro a ha b hb e
    rw [← (hg a (hl a ha)).2, ← (hg b (hl b hb)).2, e]
  · intro r
    rw [List.mem_map]
    constructor
    · rintro ⟨j, hj, rfl⟩
      obtain ⟨h1, h2⟩ := hg j (hl j hj)
      refine ⟨h1, ?_⟩
      rw [h2]
      exact ⟨hl j hj, (List.mem_filter.1 hj).2⟩
    · rintro ⟨h1, h2, h3⟩
      refine ⟨f r, List.mem_filter.2 ⟨List.mem_range.2 h2, h3⟩, ?_⟩
      obtain ⟨h4, h5⟩ := hg (f r) h2
      exact hS.inj _ _ h4 h1 h5
  · rw [k1, List.map_map]
    refine List.map_congr_left fun j hj => ?_
    obtain ⟨h1, h2⟩ := hg j (hl j hj)
    have h3 := hS.gray (g j) h1
    have h4 := hS.size (g j) h1
    rw [h2] at h3 h4
    show (⟨m'.er.value j ^^^ gm, m'.er.area j⟩ : Rep) = ⟨T.gray (g j) ^^^ gm, T.size (g j)⟩
    rw [← h3, ← h4]
    rfl

/-- C135: the specification selects one set of regions only. -/
theorem C135_unique (hI : ImageV w h img) {adj : Nat × Nat → Nat × Nat → Prop} {ι : Type} {T : RegionTree (Nat × Nat) ι}
    (hT : IsComponentTree adj (passGray img gm) (pixels w h) T) {C : Criteria} {K K' : ι → Prop} (h1 : IsReport T C K) (h2 : IsReport T C K') :
    ∀ r, K r ↔ K' r := by
  refine IsReport.unique (fun r hr p hp => (hT.parent_reg r hr p hp).1) (fun r hr p hp => (hT.parent_reg r hr p hp).2) (B := 256) (fun r hr => ?_) h1 h2
  obtain ⟨p, hp, rfl⟩ := hT.reg_lab r hr
  rw [hT.lab_gray p hp]
  have := hI.byte _ _ (mem_pixels.1 hp).1 (mem_pixels.1 hp).2
  unfold passGray
  split <;> omega

/-- C135: if the fraction of the image is exact, the lower limit is the smallest number of pixels. -/
theorem C135_limit_partial (hI : ImageV w h img) (h1 : c.r32 (c.minPoint : ℚ) = c.minPoint) (h2 : c.r32 ((w * h : Nat) : ℚ) = ((w * h : Nat) : ℚ))
    (h3 : c.r32 ((c.minPoint : ℚ) / ((w * h : Nat) : ℚ)) = (c.minPoint : ℚ) / ((w * h : Nat) : ℚ)) : (critV c w h).lo = c.minPoint := by
  have h0 : ((w * h : Nat) : ℚ) ≠ 0 := by
    have : 0 < w * h := Nat.mul_pos hI.wide hI.high
    exact_mod_cast this.ne'
  show c.r32 (c.r32 (c.r32 (c.minPoint : ℚ) / c.r32 ((w * h : Nat) : ℚ)) * c.r32 ((w * h : Nat) : ℚ)) = _
  rw [h1, h2, h3, div_mul_cancel₀ _ h0, h1]

/-! ### C136: duplicates -/

/-- C136, if the width is not 2 or there are 8 neighbours, and duplicates are removed: a reported region differs enough from the nearest
reported region around it. -/
theorem C136_duplicates_partial (hI : ImageV w h img) (hr : Rounding c.r32) (hw : conn4 = true → w ≠ 2) (hR : RanV conn4 w h img c gm t m')
    (h0 : 0 < c.dup) (h1 : c.dup < 1) {ι : Type} {T : RegionTree (Nat × Nat) ι}
    (hT : IsComponentTree (AdjC conn4 w h) (passGray img gm) (pixels w h) T) :
    ∃ l : List ι, l.Nodup ∧ (t = l.map fun r => ⟨T.gray r ^^^ gm, T.size r⟩) ∧ ∀ r ∈ l, ∀ q ∈ l, r ≠ q → Around T r q →
      (∀ a ∈ l, Around T r a → Around T a q → a = r ∨ a = q) →
      c.dup ≤ c.r32 (c.r32 (((T.size q : Int) - (T.size r : Int) : Int) : ℚ) / c.r32 (T.size q : ℚ)) := by
  obtain ⟨K, l, k1, k2, k3, k4⟩ := C135_report_partial hI hr hw hR hT
  refine ⟨l, k2, k4, fun r hrl q hql hne ha hbetween => ?_⟩
  obtain ⟨hF, hD⟩ := (k1 r).1 ((k3 r).1 hrl)
  have hup : ∀ {a b}, T.isReg a → Around T a b → T.gray a ≤ T.gray b := by
    intro a b har hab
    have : T.isReg b ∧ T.gray a ≤ T.gray b := by
      induction hab with
      | refl => exact ⟨har, le_refl _⟩
      | tail _ h2 ih =>
        have := hT.parent_reg _ ih.1 _ h2
        exact ⟨this.1, by omega⟩
    exact this.2
  rcases Relation.ReflTransGen.cases_head ha with e | ⟨p, hp, hpq⟩
  · exact absurd e hne
  · refine not_lt.1 (hD h0 h1 q ⟨⟨p, hp, hpq⟩, .inl ((k3 q).1 hql), ?_⟩)
    intro p' a hp' hpa haq hane hKa
    rw [hp] at hp'
    injection hp' with hp'
    subst hp'
    have hpr := hT.parent_reg r hF.reg p hp
    have hga := hup hpr.1 hpa
    rcases hbetween a ((k3 a).2 hKa) (.head hp hpa) haq with e | e
    · subst e
      omega
    · exact hane e

/-! ### C137: the memory does not matter -/

/-- C137, if the width is not 2 or there are 8 neighbours: two passes over the same image report the same regions, whatever the buffers
contained and whatever value unwritten memory had. -/
theorem C137_same_partial (hI : ImageV w h img) (hr : Rounding c.r32) (hw : conn4 = true → w ≠ 2) (hR : RanV conn4 w h img c gm t m')
    {t' : List Rep} {m'' : Mem} (hR' : RanV conn4 w h img c gm t' m'') : t.Perm t' := by
  obtain ⟨lab, hT⟩ := hR.tree hI hr hw
  obtain ⟨K, l, k1, k2, k3, k4⟩ := C135_report_partial hI hr hw hR hT
  obtain ⟨K', l', k1', k2', k3', k4'⟩ := C135_report_partial hI hr hw hR' hT
  rw [k4, k4']
  refine List.Perm.map _ ?_
  rw [List.perm_ext_iff_of_nodup k2 k2']
  intro r
  rw [k3, k3', C135_unique hI hT k1 k1' r]

end

/-! ### Examples and violations -/

/-- Buffers that were never used. -/
def fresh : Mem where
  perm := fun _ => 0
  r := { parent := fun _ => none, sc := fun _ => 0, area := fun _ => 0, hgt := fun _ => none, njoins := 0, ner := 0, undef := false }
  er := { ner := 0, index := fun _ => 0, value := fun _ => 0, area := fun _ => 0, parent := fun _ => 0, erOf := fun _ => none }
  rer := 0

/-- A configuration that keeps everything between the limits of the size. -/
def plainV (minPoint : Int) (ratio dup : ℚ) (r32 : ℚ → ℚ) : Cfg :=
  { delta := 1, minPoint := minPoint, ratio := ratio, stable := 1000, dup := dup, nms := -1, r32 := r32 }

/-- The report of a pass alone. -/
def reports (conn4 : Bool) (w h : Nat) (img : Nat → Nat → Nat) (gm : Nat) (fromMin : Bool) (c : Cfg) (junk : Int) (m : Mem) : Option (List Rep) :=
  (pass conn4 w h img gm fromMin c junk m).map Prod.fst

/-- A 4 × 3 image. -/
def imgV (x y : Nat) : Nat := ([[5, 1, 1, 9], [5, 5, 1, 9], [3, 5, 9, 2]].getD y []).getD x 0

theorem imageV : ImageV 4 3 imgV := ⟨by decide, by decide, fun x y hx hy => by
  have : ∀ x < 4, ∀ y < 3, imgV x y < 256 := by decide
  exact this x hx y hy⟩

theorem rounding_idV : Rounding (id : ℚ → ℚ) := by
  refine ⟨fun x y h => h, fun x => rfl, fun a b ha hb _ => ?_⟩
  have h1 : (0 : ℚ) < (a : ℚ) := by exact_mod_cast ha
  have h2 : (0 : ℚ) < (b : ℚ) := by exact_mod_cast hb
  exact div_pos h1 h2

/-- A dark pass with fresh buffers. -/
theorem imgV_dark : reports true 4 3 imgV 0 true (plainV 1 1 0 id) 77 fresh = some [⟨1, 3⟩, ⟨2, 1⟩, ⟨3, 1⟩, ⟨5, 8⟩, ⟨9, 12⟩] := by decide +kernel

/-- It has ended. -/
theorem ran_of_reports {conn4 : Bool} {w h : Nat} {img : Nat → Nat → Nat} {c : Cfg} {junk : Int} {m : Mem} {t : List Rep}
    (e : reports conn4 w h img 0 true c junk m = some t) : ∃ m', RanV conn4 w h img c 0 t m' := by
  obtain ⟨⟨t', m'⟩, h1, h2⟩ := Option.map_eq_some_iff.1 e
  obtain rfl : t' = t := h2
  exact ⟨m', .dark h1⟩

/-- C133: the hypotheses are met; the bright pass after the dark one reports the bright regions. -/
example : ((pass true 4 3 imgV 0 true (plainV 1 1 0 id) 77 fresh).bind fun r => reports true 4 3 imgV 255 true (plainV 1 1 0 id) (-5) r.2) =
    some [⟨9, 1⟩, ⟨9, 2⟩, ⟨5, 5⟩, ⟨3, 6⟩, ⟨2, 9⟩, ⟨1, 12⟩] := by decide +kernel
example : ∃ t m', pass false 4 3 imgV 0 true (plainV 1 1 0 id) 77 fresh = some (t, m') := C133_dark_partial imageV rounding_idV _ _ _ _
example : ∃ t m', pass true 4 3 imgV 255 false (plainV 1 1 0 id) 77 fresh = some (t, m') := C133_only_partial imageV rounding_idV _ _ _

/-- C134, C135, C137: the hypotheses are met. -/
example : ∃ m', RanV true 4 3 imgV (plainV 1 1 0 id) 0 [⟨1, 3⟩, ⟨2, 1⟩, ⟨3, 1⟩, ⟨5, 8⟩, ⟨9, 12⟩] m' := ran_of_reports imgV_dark
example : ∃ p ∈ pixels 4 3, 5 = imgV p.1 p.2 ∧
    ∀ s : Finset (Nat × Nat), (∀ q, q ∈ s ↔ q ∈ pixels 4 3 ∧ LConn (AdjC true 4 3) (passGray imgV 0) (passGray imgV 0 p) p q) → 8 = s.card := by
  obtain ⟨m', hR⟩ := ran_of_reports imgV_dark
  exact C134_regions_partial imageV rounding_idV (by decide) hR (r := ⟨5, 8⟩) (by decide)

/-- C135: the size, the stability and the suppression of neighbours select. -/
example : reports true 4 3 imgV 0 true { plainV 3 (1 / 2) 0 id with delta := 4, stable := 2 } 77 fresh = some [⟨1, 3⟩] := by decide +kernel
example : reports true 3 1 (fun x _ => x) 0 true { plainV 1 1 0 id with nms := 0 } 77 fresh = some [⟨2, 3⟩] := by decide +kernel
example : reports true 3 1 (fun x _ => x) 0 true { plainV 1 1 0 id with nms := 1 / 2 } 77 fresh = some [⟨0, 1⟩, ⟨1, 2⟩, ⟨2, 3⟩] := by decide +kernel
example : (critV (plainV 3 1 0 id) 4 3).lo = 3 := C135_limit_partial imageV rfl rfl rfl

/-- C136: with 0.4 the region of 8 of 12 pixels is a duplicate, with 0.3 it is not. -/
example : reports true 4 3 imgV 0 true (plainV 1 1 (2 / 5) id) 77 fresh = some [⟨1, 3⟩, ⟨2, 1⟩, ⟨3, 1⟩, ⟨9, 12⟩] := by decide +kernel
example : reports true 4 3 imgV 0 true (plainV 1 1 (3 / 10) id) 77 fresh = some [⟨1, 3⟩, ⟨2, 1⟩, ⟨3, 1⟩, ⟨5, 8⟩, ⟨9, 12⟩] := by decide +kernel

/-- C133 is violated in that heights are read which were never written. -/
theorem not_C133_unwritten : ∃ w h img c, ImageV w h img ∧ Rounding c.r32 ∧
    ∃ junk t m', pass true w h img 0 true c junk fresh = some (t, m') ∧ m'.r.undef = true := by
  refine ⟨3, 1, fun x _ => 2 - x, plainV 1 1 0 id, ⟨by decide, by decide, fun x y h1 _ => by omega⟩, rounding_idV, 0, ?_⟩
  have e : ((pass true 3 1 (fun x _ => 2 - x) 0 true (plainV 1 1 0 id) 0 fresh).map fun r => r.2.r.undef) = some true := by decide +kernel
  obtain ⟨⟨t, m'⟩, h1, h2⟩ := Option.map_eq_some_iff.1 e
  exact ⟨t, m', h1, h2⟩

/-- C134 is violated by images with two columns and 4 neighbours: the two pixels of a diagonal are reported as one region. -/
theorem not_C134_two_columns : ∃ img t m', ImageV 2 2 img ∧ RanV true 2 2 img (plainV 1 1 0 id) 0 t m' ∧ (⟨1, 2⟩ : Rep) ∈ t ∧
    ∀ p ∈ pixels 2 2, img p.1 p.2 = 1 → ∀ q ∈ pixels 2 2, LConn (Adj4 2 2) (passGray img 0) 1 p q → q = p := by
  obtain ⟨m', hR⟩ := ran_of_reports (conn4 := true) (w := 2) (h := 2) (img := fun x y => if x = y then 9 else 1) (c := plainV 1 1 0 id) (junk := 7)
    (m := fresh) (t := [⟨1, 2⟩, ⟨9, 4⟩]) (by decide +kernel)
  refine ⟨_, _, m', ⟨by decide, by decide, fun x y _ _ => by split <;> decide⟩, hR, by decide, ?_⟩
  intro p hp hp1 q hq hpq
  rcases Relation.ReflTransGen.cases_head hpq with e | ⟨b, ⟨hb, -, hb1⟩, -⟩
  · exact e.symm
  · exfalso
    obtain ⟨x, y⟩ := p
    obtain ⟨x', y'⟩ := b
    have h1 := mem_pixels.1 hp
    have h2 : (if x = y then 9 else 1) = 1 := hp1
    have h3 : (if x' = y' then 9 else 1) ≤ 1 := hb1
    obtain ⟨h4, h5, h6⟩ := hb
    have h7 := mem_pixels.1 h5
    dsimp only at *
    split at h2 <;> split at h3 <;> omega

/-- C135 is violated in that the limit is rounded: a region of 7 of 13 pixels is not reported though 7 is the smallest number of pixels. -/
theorem not_C135_rounded : ∃ img, ImageV 13 1 img ∧ reports true 13 1 img 0 true (plainV 7 1 0 f32) 0 fresh = some [⟨9, 13⟩] ∧
    reports true 13 1 img 0 true (plainV 6 1 0 f32) 0 fresh = some [⟨0, 7⟩, ⟨9, 13⟩] ∧ 7 < (critV (plainV 7 1 0 f32) 13 1).lo := by
  refine ⟨fun x _ => if x < 7 then 0 else 9, ⟨by decide, by decide, fun x y _ _ => by split <;> decide⟩, ?_, ?_, ?_⟩
  · decide +kernel
  · decide +kernel
  · decide +kernel

/-- C136 is violated in that a region is removed as a duplicate of a region that is not reported: nothing is left. -/
theorem not_C136_root : ∃ img, ImageV 5 1 img ∧ reports true 5 1 img 0 true (plainV 1 (9 / 10) (3 / 10) id) 0 fresh = some [] ∧
    reports true 5 1 img 0 true (plainV 1 (9 / 10) 0 id) 0 fresh = some [⟨0, 4⟩] := by
  refine ⟨fun x _ => if x < 4 then 0 else 9, ⟨by decide, by decide, fun x y _ _ => by split <;> decide⟩, ?_, ?_⟩
  · decide +kernel
  · decide +kernel

end Verif.Props
