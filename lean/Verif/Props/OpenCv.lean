import Verif.Proof.OpenCvGrid
import Verif.Proof.OpenCvReuse
import Verif.Props.Extract

/-!
# Properties C92–C96: the OpenCV detector

`pass w h img gm cfg gap old H pts n` is `build_tree` and `extract_pixel` of `img_opencv_mser` for one polarity: `gap` is the number in
`m_step_gap`, which no line of the code assigns; `old`, `H` and `pts` are what the buffers contain.
-/

namespace Verif.Props

open Verif.Spec
open Verif.OpenCv (pass RecO LPoint Hist widthGap level place cell envO patchO)
open Verif.Recog (Cfg)
open Relation (ReflTransGen)

/-- The gray values as the pass with mask `gm` floods them. -/
def flooded (img : Nat → Nat → Nat) (gm : Nat) (p : Nat × Nat) : Nat := if gm = 0 then 255 - img p.1 p.2 else img p.1 p.2

theorem flooded_eq (img : Nat → Nat → Nat) (gm : Nat) : (fun p : Nat × Nat => level gm (img p.1 p.2)) = flooded img gm := by
  funext p
  by_cases h : gm = 0 <;> simp [flooded, level, h]

/-- A component in the buffer is a component of the image. -/
theorem isC_pixels {w h gm g : Nat} {img : Nat → Nat → Nat} {C : Finset Nat}
    (hC : OpenCv.IsC (patchO (widthGap w).1 w h img gm) g C) :
    ∃ p₀ ∈ pixels w h, cell (widthGap w).1 p₀ ∈ C ∧
      ∀ p ∈ pixels w h, cell (widthGap w).1 p ∈ C ↔ LConn (Adj4 w h) (flooded img gm) g p₀ p := by
  have hW := (OpenCv.widthGap_spec w).2.1
  obtain ⟨i, hi⟩ := hC.ne
  obtain ⟨p₀, hp₀, rfl⟩ := OpenCv.mem_pxO.1 (hC.px i hi).1
  refine ⟨p₀, hp₀, hi, fun p hp => ?_⟩
  rw [hC.comp _ hi _ (OpenCv.mem_pxO.2 ⟨p, hp, rfl⟩), OpenCv.lconnO_iff hW hp₀ hp, flooded_eq]

/-! ### C95: the pass comes to its end -/

/-- C95, given a shift of less than 32 bits: the pass ends after at most five steps per pixel, without undefined behaviour: no pointer is
used that was not assigned, no index exceeds `m_comp`, `m_points` or `m_history`, no quotient has the divisor 0. -/
theorem C95_ends_partial {w h gm n gap : Nat} {img : Nat → Nat → Nat} (hI : ImageOK w h img gm) (cfg : Cfg) (hgap : gap < 32)
    (old : Nat → Int) (H : Nat → Hist) (pts : Nat → LPoint) (hn : 5 * (w * h) ≤ n) :
    ∃ v, pass w h img gm cfg gap old H pts n = .done v := by
  have hW := (OpenCv.widthGap_spec w).2.1
  obtain ⟨v, h1, _⟩ := OpenCv.run_done (E := envO w h img gm cfg gap) (OpenCv.envO_ok hI.w_pos hI.h_pos hI.img_lt hgap) (le_refl _) H pts
    (fun i hs => OpenCv.seen_vis hW old hs) (n := n) (by
      show 5 * (patchO (widthGap w).1 w h img gm).px.card ≤ n
      rw [OpenCv.patchO_card hW]; exact hn)
  exact ⟨v, h1⟩

/-- C95: the cells read are cells of `m_temp_image`, which has `h + 2` rows. -/
theorem C95_cells {w h k : Nat} {p : Nat × Nat} (hp : p ∈ pixels w h) (h1 : 1 ≤ k) (h4 : k ≤ 4) :
    cell (widthGap w).1 p < (widthGap w).1 * (h + 2) ∧
      OpenCv.nbO (widthGap w).1 (cell (widthGap w).1 p) k < (widthGap w).1 * (h + 2) := by
  have hW := (OpenCv.widthGap_spec w).2.1
  have hm := (OpenCv.mem_pxO (W := (widthGap w).1) (img := fun _ _ => 0) (gm := 0)).2 ⟨p, hp, rfl⟩
  exact ⟨OpenCv.seen_lt hW (.inl hm), OpenCv.seen_lt hW (.inr ⟨_, hm, k, h1, h4, rfl⟩)⟩

example : (2, 1) ∈ pixels 3 2 ∧ 1 ≤ 2 ∧ 2 ≤ 4 := by decide

theorem run_mono {E : OpenCv.Env} : ∀ {n m : Nat} {s v : OpenCv.St}, OpenCv.run E n s = .done v → n ≤ m → OpenCv.run E m s = .done v
  | 0, _, _, _, h, _ => by simp [OpenCv.run] at h
  | n + 1, 0, _, _, _, h => by omega
  | n + 1, m + 1, s, v, h, hm => by
    unfold OpenCv.run at h ⊢
    revert h
    cases OpenCv.step E s with
    | next s' => exact fun h => run_mono h (by omega)
    | done s' => exact fun h => h
    | ub => exact fun h => h

/-- What is known of every reported region. -/
theorem rec_ok {w h gm n gap : Nat} {img : Nat → Nat → Nat} (hI : ImageOK w h img gm) {cfg : Cfg} (hgap : gap < 32)
    {old : Nat → Int} {H : Nat → Hist} {pts : Nat → LPoint} {v : OpenCv.St}
    (hv : pass w h img gm cfg gap old H pts n = .done v) {r : RecO} (hr : r ∈ v.out) :
    ∃ S g C, OpenCv.RecOK (envO w h img gm cfg gap) r S g C := by
  have hW := (OpenCv.widthGap_spec w).2.1
  obtain ⟨v', h1, h2⟩ := OpenCv.run_done (E := envO w h img gm cfg gap) (OpenCv.envO_ok hI.w_pos hI.h_pos hI.img_lt hgap) (le_refl _) H pts
    (fun i hs => OpenCv.seen_vis hW old hs) (n := n + 5 * (w * h)) (by
      show 5 * (patchO (widthGap w).1 w h img gm).px.card ≤ _
      rw [OpenCv.patchO_card hW]; omega)
  have h3 : OpenCv.run (envO w h img gm cfg gap) (n + 5 * (w * h)) _ = .done v := run_mono hv (by omega)
  rw [h1] at h3
  injection h3 with h3
  subst h3
  exact h2 r hr

/-! ### C92: the regions -/

/-- The points are, each once, the pixels of one connected component of `{gv ≤ lev}`. -/
def IsRegionAt (w h : Nat) (gv : Nat × Nat → Nat) (lev : Nat) (D : List (Nat × Nat)) : Prop :=
  D.Nodup ∧ ∃ p₀ ∈ pixels w h, gv p₀ ≤ lev ∧ ∀ p, p ∈ D ↔ p ∈ pixels w h ∧ LConn (Adj4 w h) gv lev p₀ p

/-- C92, with the right shift (see C94): the points of a region are different pixels of one component of a threshold set, at least one
pixel of the component is missing, their number is within the limits and the rectangle is their bounding box.  If the level of the
history they belong to is below that of the component, they are a component of it. -/
theorem C92_regions_partial {w h gm n : Nat} {img : Nat → Nat → Nat} (hI : ImageOK w h img gm) {cfg : Cfg}
    (hw : w ≤ 32768) (hh : h ≤ 32768) (hgap : (widthGap w).2 < 32)
    {old : Nat → Int} {H : Nat → Hist} {pts : Nat → LPoint} {v : OpenCv.St}
    (hv : pass w h img gm cfg (widthGap w).2 old H pts n = .done v) {r : RecO} (hr : r ∈ v.out) :
    r.points.Nodup ∧ r.points ≠ [] ∧
    cfg.minPoint ≤ (r.points.length : Int) ∧ (r.points.length : Int) ≤ cfg.maxPoint ∧
    IsBoundingBox (r.points.map fun p => ((p.1 : Int), (p.2 : Int))) r.rect ∧
    ∃ g, ∃ p₀ ∈ pixels w h, flooded img gm p₀ ≤ g ∧
      (∀ p ∈ r.points, p ∈ pixels w h ∧ LConn (Adj4 w h) (flooded img gm) g p₀ p) ∧
      (∃ q ∈ pixels w h, LConn (Adj4 w h) (flooded img gm) g p₀ q ∧ q ∉ r.points) ∧
      r.from_ ≤ g ∧ (r.from_ < g → IsRegionAt w h (flooded img gm) r.from_ r.points) := by
  obtain ⟨S, g, C, hR⟩ := rec_ok hI hgap hv hr
  have hW := (OpenCv.widthGap_spec w).2.1
  -- the pixels of `S`
  have hS : ∀ i ∈ S, ∃ p ∈ pixels w h, i = cell (widthGap w).1 p := fun i hi =>
    OpenCv.mem_pxO.1 (hR.comp.px i (hR.sub i hi)).1
  have hpl : ∀ p ∈ pixels w h, place (envO w h img gm cfg (widthGap w).2) (cell (widthGap w).1 p) = p := fun p hp =>
    OpenCv.place_eq (mem_pixels.1 hp).1
  have hmem : ∀ p, p ∈ r.points ↔ p ∈ pixels w h ∧ cell (widthGap w).1 p ∈ S := by
    intro p
    rw [hR.points, List.mem_map]
    constructor
    · rintro ⟨i, hi, rfl⟩
      obtain ⟨q, hq, rfl⟩ := hS i hi
      rw [hpl q hq]
      exact ⟨hq, hi⟩
    · rintro ⟨hp, hi⟩
      exact ⟨_, hi, hpl p hp⟩
  have hlen : r.points.length = S.length := by rw [hR.points, List.length_map]
  have hnd : r.points.Nodup := by
    rw [hR.points]
    refine List.Nodup.map_on (fun i hi j hj e => ?_) hR.nodup
    obtain ⟨p, hp, rfl⟩ := hS i hi
    obtain ⟨q, hq, rfl⟩ := hS j hj
    rw [hpl p hp, hpl q hq] at e
    rw [e]
  have hne : r.points ≠ [] := by
    intro e
    have := hR.pos
    rw [← hlen, e] at this
    exact absurd this (by simp)
  obtain ⟨p₀, hp₀, hm₀, hc⟩ := isC_pixels hR.comp
  have hg₀ : ∀ {l : Nat} {D : Finset Nat} {p : Nat × Nat}, OpenCv.IsC (patchO (widthGap w).1 w h img gm) l D → p ∈ pixels w h →
      cell (widthGap w).1 p ∈ D → flooded img gm p ≤ l := by
    intro l D p hD hp hpD
    have := (hD.px _ hpD).2
    rw [OpenCv.patchO_gray hW (mem_pixels.1 hp).1] at this
    exact (congrFun (flooded_eq img gm) p) ▸ this
  refine ⟨hnd, hne, by rw [hlen]; exact hR.min, by rw [hlen]; exact hR.max, ?_,
    g, p₀, hp₀, hg₀ hR.comp hp₀ hm₀, ?_, ?_, hR.from_le, ?_⟩
  · -- the rectangle
    have hx := OpenCv.foldl_min Prod.fst r.points 2147483647
    have hy := OpenCv.foldl_min Prod.snd r.points 2147483647
    have hX := OpenCv.foldl_max Prod.fst r.points 0
    have hY := OpenCv.foldl_max Prod.snd r.points 0
    have hin : ∀ p ∈ r.points, p.1 < 32768 ∧ p.2 < 32768 := by
      intro p hp
      have := mem_pixels.1 ((hmem p).1 hp).1
      omega
    have att : ∀ (f : Nat × Nat → Nat) (m : Nat), (∀ p ∈ r.points, m ≤ f p) → (m = 2147483647 ∨ ∃ p ∈ r.points, f p = m) →
        (∀ p ∈ r.points, f p < 32768) → ∃ p ∈ r.points, f p = m := by
      rintro f m h1 (h2 | h2) h3
      · obtain ⟨p, hp⟩ := List.exists_mem_of_ne_nil _ hne
        have := h1 p hp
        have := h3 p hp
        omega
      · exact h2
    have att' : ∀ (f : Nat × Nat → Nat) (m : Nat), (∀ p ∈ r.points, f p ≤ m) → (m = 0 ∨ ∃ p ∈ r.points, f p = m) →
        ∃ p ∈ r.points, f p = m := by
      rintro f m h1 (h2 | h2)
      · obtain ⟨p, hp⟩ := List.exists_mem_of_ne_nil _ hne
        have := h1 p hp
        exact ⟨p, hp, by omega⟩
      · exact h2
    rw [hR.rect]
    unfold OpenCv.rectOf
    refine ⟨?_, ?_, ?_, ?_, ?_⟩
    · intro p hp
      obtain ⟨q, hq, rfl⟩ := List.mem_map.1 hp
      have := hx.2.1 q hq
      have := hy.2.1 q hq
      have := hX.2.1 q hq
      have := hY.2.1 q hq
      dsimp only
      omega
    · obtain ⟨p, hp, e⟩ := att Prod.fst _ hx.2.1 hx.2.2 (fun p hp => (hin p hp).1)
      exact ⟨_, List.mem_map.2 ⟨p, hp, rfl⟩, congrArg Int.ofNat e⟩
    · obtain ⟨p, hp, e⟩ := att Prod.snd _ hy.2.1 hy.2.2 (fun p hp => (hin p hp).2)
      exact ⟨_, List.mem_map.2 ⟨p, hp, rfl⟩, congrArg Int.ofNat e⟩
    · obtain ⟨p, hp, e⟩ := att' Prod.fst _ hX.2.1 hX.2.2
      refine ⟨_, List.mem_map.2 ⟨p, hp, rfl⟩, ?_⟩
      dsimp only at e ⊢
      omega
    · obtain ⟨p, hp, e⟩ := att' Prod.snd _ hY.2.1 hY.2.2
      refine ⟨_, List.mem_map.2 ⟨p, hp, rfl⟩, ?_⟩
      dsimp only at e ⊢
      omega
  · intro p hp
    obtain ⟨h1, h2⟩ := (hmem p).1 hp
    exact ⟨h1, (hc p h1).1 (hR.sub _ h2)⟩
  · have hlt : S.toFinset.card < C.card := by
      rw [List.toFinset_card_of_nodup hR.nodup]; exact hR.lt
    obtain ⟨i, hi, hni⟩ := Finset.exists_mem_notMem_of_card_lt_card hlt
    obtain ⟨q, hq, rfl⟩ := OpenCv.mem_pxO.1 (hR.comp.px i hi).1
    exact ⟨q, hq, (hc q hq).1 hi, fun hm => hni (List.mem_toFinset.2 ((hmem q).1 hm).2)⟩
  · intro hlt
    have hD := hR.from_comp hlt
    obtain ⟨p₁, hp₁, hm₁, hc₁⟩ := isC_pixels hD
    refine ⟨hnd, p₁, hp₁, hg₀ hD hp₁ hm₁, fun p => ?_⟩
    rw [hmem p]
    constructor
    · rintro ⟨h1, h2⟩
      exact ⟨h1, (hc₁ p h1).1 (List.mem_toFinset.2 h2)⟩
    · rintro ⟨h1, h2⟩
      exact ⟨h1, List.mem_toFinset.1 ((hc₁ p h1).2 h2)⟩

/-- An image of 5×3 pixels. -/
def brokenImg (x y : Nat) : Nat := ([[0, 3, 4, 0, 1], [4, 5, 2, 1, 1], [2, 4, 0, 3, 0]].getD y []).getD x 0

/-- Delta 1, sizes 1 to 100, variation 0.5, duplicates 0.1. -/
def brokenCfg : Cfg := ⟨1, 1, 100, 1 / 2, 0, 1 / 10, id, id⟩

/-- Buffers with zeros. -/
def zeroHist : Nat → Hist := fun _ => ⟨0, 0, 0, 0, 0⟩
def zeroPts : Nat → LPoint := fun _ => ⟨0, 0, none⟩

/-- Level, points, level of the history of the regions reported by a pass that ended. -/
def reportO : OpenCv.Out → Option (List (Nat × List (Nat × Nat) × Nat))
  | .done v => some (v.out.map fun r => (r.gray, r.points, r.from_))
  | _ => none

theorem reportO_done {o : OpenCv.Out} {l : List (Nat × List (Nat × Nat) × Nat)} (h : reportO o = some l) :
    ∃ v, o = .done v ∧ v.out.map (fun r => (r.gray, r.points, r.from_)) = l := by
  cases o with
  | done v => exact ⟨v, rfl, by simpa [reportO] using h⟩
  | next s => simp [reportO] at h
  | ub => simp [reportO] at h

/-- The points reported for `brokenImg`: two pixels at the top left, and eight pixels that do not touch them. -/
def brokenPts : List (Nat × Nat) := [(3, 0), (3, 1), (4, 2), (4, 1), (4, 0), (2, 2), (2, 1), (3, 2), (0, 0), (1, 0)]

set_option maxRecDepth 100000 in
theorem broken_run : reportO (pass 5 3 brokenImg 255 brokenCfg 3 (fun _ => 0) zeroHist zeroPts 75) = some [(251, brokenPts, 4)] := by
  decide +kernel

set_option maxRecDepth 100000 in
theorem broken_run0 :
    reportO (pass 5 3 (fun x y => 255 - brokenImg x y) 0 brokenCfg 3 (fun _ => 0) zeroHist zeroPts 75) = some [(4, brokenPts, 4)] := by
  decide +kernel

set_option maxRecDepth 100000 in
theorem broken_run_shift : reportO (pass 5 3 brokenImg 255 brokenCfg 0 (fun _ => 0) zeroHist zeroPts 75) =
    some [(251, [(3, 3), (3, 11), (4, 20), (4, 12), (4, 4), (2, 18), (2, 10), (3, 19), (0, 0), (1, 1)], 4)] := by
  decide +kernel

theorem broken_ok : ImageOK 5 3 brokenImg 255 where
  w_pos := by decide
  h_pos := by decide
  img_lt := by
    have : ∀ x < 5, ∀ y < 3, brokenImg x y < 256 := by decide
    exact fun x y hx hy => this x hx y hy
  gm_lt := by decide

theorem broken_ok0 : ImageOK 5 3 (fun x y => 255 - brokenImg x y) 0 :=
  ⟨by decide, by decide, fun _ _ _ _ => by omega, by decide⟩

theorem broken_gap : (widthGap 5).2 = 3 := by decide

/-- The hypotheses of `C92_regions_partial` can be met, with a region reported. -/
example : ∃ v, ∃ r ∈ v.out, ImageOK 5 3 brokenImg 255 ∧ (widthGap 5).2 < 32 ∧
    pass 5 3 brokenImg 255 brokenCfg (widthGap 5).2 (fun _ => 0) zeroHist zeroPts 75 = .done v ∧ r.points.length = 10 := by
  obtain ⟨v, h1, h2⟩ := reportO_done broken_run
  have hm : (251, brokenPts, 4) ∈ v.out.map (fun r : RecO => (r.gray, r.points, r.from_)) := by rw [h2]; simp
  obtain ⟨r, hr, e⟩ := List.mem_map.1 hm
  refine ⟨v, r, hr, broken_ok, by decide, by rw [broken_gap]; exact h1, ?_⟩
  rw [show r.points = brokenPts by injection e with _ e; injection e]
  rfl

/-- Two points of one region that are not joined inside of it. -/
theorem broken_apart {gv : Nat × Nat → Nat} {lev : Nat} : ¬ IsRegionAt 5 3 gv lev brokenPts := by
  rintro ⟨_, p₀, hp₀, hg₀, hD⟩
  have closed : ∀ a, LConn (Adj4 5 3) gv lev p₀ a → a ∈ pixels 5 3 → a ∈ brokenPts := fun a h1 h2 => (hD a).2 ⟨h2, h1⟩
  -- nothing leads across the columns 1 and 2
  have key : ∀ a b, a ∈ brokenPts → b ∈ brokenPts → Adj4 5 3 a b → (a.1 ≤ 1 ↔ b.1 ≤ 1) := by
    have : ∀ a ∈ brokenPts, ∀ b ∈ brokenPts,
        ((a.2 = b.2 ∧ (a.1 + 1 = b.1 ∨ b.1 + 1 = a.1)) ∨ (a.1 = b.1 ∧ (a.2 + 1 = b.2 ∨ b.2 + 1 = a.2))) → (a.1 ≤ 1 ↔ b.1 ≤ 1) := by
      decide
    exact fun a b ha hb h => this a ha b hb h.2.2
  have walk : ∀ a, LConn (Adj4 5 3) gv lev p₀ a → (a.1 ≤ 1 ↔ p₀.1 ≤ 1) := by
    intro a ha
    induction ha with
    | refl => exact Iff.rfl
    | @tail b c h1 h2 ih =>
      rw [← ih]
      exact (key b c (closed b h1 h2.1.1) (closed c (.tail h1 h2) h2.1.2.1) h2.1).symm
  have h1 := walk (0, 0) ((hD (0, 0)).1 (by decide)).2
  have h2 := walk (3, 0) ((hD (3, 0)).1 (by decide)).2
  simp only at h1 h2
  omega

/-- C92 is violated: a reported region need not be connected, not even with the right shift. -/
theorem not_C92_connected : ∃ w h img gm cfg v, ImageOK w h img gm ∧
    pass w h img gm cfg (widthGap w).2 (fun _ => 0) zeroHist zeroPts (5 * (w * h)) = .done v ∧
    ∃ r ∈ v.out, ∀ lev, ¬ IsRegionAt w h (flooded img gm) lev r.points := by
  obtain ⟨v, h1, h2⟩ := reportO_done broken_run
  have hm : (251, brokenPts, 4) ∈ v.out.map (fun r : RecO => (r.gray, r.points, r.from_)) := by rw [h2]; simp
  obtain ⟨r, hr, e⟩ := List.mem_map.1 hm
  refine ⟨5, 3, brokenImg, 255, brokenCfg, v, broken_ok, by rw [broken_gap]; exact h1, r, hr, fun lev => ?_⟩
  rw [show r.points = brokenPts by injection e with _ e; injection e]
  exact broken_apart

/-! ### C93: gray level and polarity -/

/-- C93, what is reported instead: `255 - t`, where `t` is the gray value that bounds a component of which the region is a proper part; with gray
mask 0, whose regions go to `m_msers[0]`, the region is a part of a component of `{img ≥ t}`, otherwise of `{img ≤ t}`. -/
theorem C93_level_partial {w h gm n : Nat} {img : Nat → Nat → Nat} (hI : ImageOK w h img gm) {cfg : Cfg}
    (hgap : (widthGap w).2 < 32)
    {old : Nat → Int} {H : Nat → Hist} {pts : Nat → LPoint} {v : OpenCv.St}
    (hv : pass w h img gm cfg (widthGap w).2 old H pts n = .done v) {r : RecO} (hr : r ∈ v.out) :
    ∃ t ≤ 255, r.gray = 255 - t ∧ ∀ p ∈ r.points, if gm = 0 then t ≤ img p.1 p.2 else img p.1 p.2 ≤ t := by
  obtain ⟨S, g, C, hR⟩ := rec_ok hI hgap hv hr
  have hW := (OpenCv.widthGap_spec w).2.1
  have hpt : ∀ p ∈ r.points, p ∈ pixels w h ∧ level gm (img p.1 p.2) ≤ g := by
    intro p hp
    rw [hR.points, List.mem_map] at hp
    obtain ⟨i, hi, rfl⟩ := hp
    obtain ⟨h1, h2⟩ := hR.comp.px i (hR.sub i hi)
    obtain ⟨q, hq, rfl⟩ := OpenCv.mem_pxO.1 h1
    rw [OpenCv.place_eq (mem_pixels.1 hq).1]
    have h3 : (patchO (widthGap w).1 w h img gm).gray (cell (widthGap w).1 q) ≤ g := h2
    rw [OpenCv.patchO_gray hW (mem_pixels.1 hq).1] at h3
    exact ⟨hq, h3⟩
  have hg : r.gray = if gm = 0 then g % 256 else 255 - g % 256 := hR.gray
  have hg256 : g < 256 := hR.lt256
  rw [Nat.mod_eq_of_lt hg256] at hg
  by_cases h0 : gm = 0
  · simp only [h0, if_true] at hg ⊢
    refine ⟨255 - g, by omega, by omega, fun p hp => ?_⟩
    have h1 := (hpt p hp).2
    have h2 := hI.img_lt p.1 p.2 (mem_pixels.1 (hpt p hp).1).1 (mem_pixels.1 (hpt p hp).1).2
    simp only [level, h0, ne_eq, not_true_eq_false, if_false] at h1
    omega
  · simp only [h0, if_false] at hg ⊢
    refine ⟨g, by omega, hg, fun p hp => ?_⟩
    have h1 := (hpt p hp).2
    simpa only [level, ne_eq, h0, not_false_eq_true, if_true] using h1

/-- C93 is violated: no pixel of the region has the level that is reported. -/
theorem not_C93_level : ∃ w h img gm cfg v, ImageOK w h img gm ∧
    pass w h img gm cfg (widthGap w).2 (fun _ => 0) zeroHist zeroPts (5 * (w * h)) = .done v ∧
    ∃ r ∈ v.out, ∀ p ∈ r.points, img p.1 p.2 + 200 < r.gray := by
  obtain ⟨v, h1, h2⟩ := reportO_done broken_run
  have hm : (251, brokenPts, 4) ∈ v.out.map (fun r : RecO => (r.gray, r.points, r.from_)) := by rw [h2]; simp
  obtain ⟨r, hr, e⟩ := List.mem_map.1 hm
  refine ⟨5, 3, brokenImg, 255, brokenCfg, v, broken_ok, by rw [broken_gap]; exact h1, r, hr, ?_⟩
  injection e with e1 e2
  injection e2 with e2
  rw [e1, e2]
  decide

/-- C93 is violated: the list with the index 0, in which the other detectors deliver dark regions, gets a region all pixels of which are
brighter than a pixel next to it. -/
theorem not_C93_polarity : ∃ w h img cfg v, ImageOK w h img 0 ∧
    pass w h img 0 cfg (widthGap w).2 (fun _ => 0) zeroHist zeroPts (5 * (w * h)) = .done v ∧
    ∃ r ∈ v.out, ∃ q ∈ pixels w h, q ∉ r.points ∧ (∃ p ∈ r.points, Adj4 w h p q) ∧ ∀ p ∈ r.points, img q.1 q.2 < img p.1 p.2 := by
  obtain ⟨v, h1, h2⟩ := reportO_done broken_run0
  have hm : (4, brokenPts, 4) ∈ v.out.map (fun r : RecO => (r.gray, r.points, r.from_)) := by rw [h2]; simp
  obtain ⟨r, hr, e⟩ := List.mem_map.1 hm
  refine ⟨5, 3, _, brokenCfg, v, broken_ok0, by rw [broken_gap]; exact h1, r, hr, (1, 1), by decide, ?_⟩
  injection e with e1 e2
  injection e2 with e2
  rw [e2]
  refine ⟨by decide, ⟨(1, 0), by decide, by decide, by decide, by decide⟩, by decide⟩

/-! ### C94: the coordinates -/

/-- C94, with the right shift: the pixel in a cell gets its own coordinates; the column is right with every shift. -/
theorem C94_coordinates_partial {w h gm gap : Nat} (img : Nat → Nat → Nat) (cfg : Cfg) {p : Nat × Nat} (hp : p ∈ pixels w h) :
    (place (envO w h img gm cfg gap) (cell (widthGap w).1 p)).1 = p.1 ∧
    (gap = (widthGap w).2 → place (envO w h img gm cfg gap) (cell (widthGap w).1 p) = p) :=
  ⟨OpenCv.place_x (mem_pixels.1 hp).1, fun h => h ▸ OpenCv.place_eq (mem_pixels.1 hp).1⟩

/-- C94 is violated: with every other shift the first pixel of the second row gets the wrong row. -/
theorem not_C94_row {w h gm gap : Nat} (img : Nat → Nat → Nat) (cfg : Cfg) (hne : gap ≠ (widthGap w).2) :
    (place (envO w h img gm cfg gap) (cell (widthGap w).1 (0, 1))).2 ≠ 1 := by
  rw [OpenCv.place_y]
  obtain ⟨h1, _, _⟩ := OpenCv.widthGap_spec w
  simp only [Nat.mul_one, Nat.add_zero]
  rw [h1]
  generalize (widthGap w).2 = k at hne ⊢
  rcases Nat.lt_or_gt_of_ne hne with h | h
  · rw [Nat.pow_div h.le (by omega)]
    intro e
    have := Nat.pow_lt_pow_right (a := 2) (by omega) (show 0 < k - gap by omega)
    omega
  · rw [Nat.div_eq_of_lt (Nat.pow_lt_pow_right (by omega) h)]
    omega

/-- C94 is violated: with 0 in `m_step_gap` a region is reported with points outside of the image. -/
theorem not_C94_inside : ∃ w h img gm cfg v, ImageOK w h img gm ∧
    pass w h img gm cfg 0 (fun _ => 0) zeroHist zeroPts (5 * (w * h)) = .done v ∧
    ∃ r ∈ v.out, ∃ p ∈ r.points, p ∉ pixels w h := by
  obtain ⟨v, h1, h2⟩ := reportO_done broken_run_shift
  obtain ⟨r, hr, e⟩ := List.mem_map.1 (show _ ∈ v.out.map _ by rw [h2]; exact List.mem_singleton.2 rfl)
  refine ⟨5, 3, brokenImg, 255, brokenCfg, v, broken_ok, h1, r, hr, (3, 11), ?_, by decide⟩
  injection e with e1 e2
  injection e2 with e2
  rw [e2]
  decide

/-- C95 is violated: `m_step_gap` may contain a number by which an `int` cannot be shifted. -/
theorem not_C95_ends : ∃ w h img gm cfg, ImageOK w h img gm ∧
    pass w h img gm cfg 32 (fun _ => 0) zeroHist zeroPts (5 * (w * h)) = .ub := by
  refine ⟨1, 1, fun _ _ => 7, 255, brokenCfg, ⟨by decide, by decide, fun _ _ _ _ => by decide, by decide⟩, ?_⟩
  have h : (match pass 1 1 (fun _ _ => 7) 255 brokenCfg 32 (fun _ => 0) zeroHist zeroPts (5 * (1 * 1)) with
      | .ub => true
      | _ => false) = true := by decide +kernel
  revert h
  cases pass 1 1 (fun _ _ => 7) 255 brokenCfg 32 (fun _ => 0) zeroHist zeroPts (5 * (1 * 1)) with
  | ub => exact fun _ => rfl
  | done v => exact fun h => Bool.noConfusion h
  | next v => exact fun h => Bool.noConfusion h

/-! ### C96: the buffers -/

/-- C96: what the buffers contained before, in cells and entries that the pass has not written yet, does not matter: a detector used for
many images reports what a new one reports. -/
theorem C96_reuse {w h gm n gap : Nat} {img : Nat → Nat → Nat} (hI : ImageOK w h img gm) {cfg : Cfg} (hgap : gap < 32)
    {old old' : Nat → Int} {H H' : Nat → Hist} {pts pts' : Nat → LPoint} {v : OpenCv.St}
    (hv : pass w h img gm cfg gap old H pts n = .done v) :
    ∃ v', pass w h img gm cfg gap old' H' pts' n = .done v' ∧ v'.out = v.out := by
  have hW := (OpenCv.widthGap_spec w).2.1
  exact OpenCv.run_same (OpenCv.envO_ok hI.w_pos hI.h_pos hI.img_lt hgap) H H' pts pts'
    (fun i hs => OpenCv.seen_vis hW old hs) (fun i hs => OpenCv.seen_vis hW old' hs) hv

/-- The hypotheses can be met, with a region reported. -/
example : ∃ v, ImageOK 5 3 brokenImg 255 ∧ 3 < 32 ∧
    pass 5 3 brokenImg 255 brokenCfg 3 (fun _ => 0) zeroHist zeroPts 75 = .done v ∧ v.out.length = 1 := by
  obtain ⟨v, h1, h2⟩ := reportO_done broken_run
  exact ⟨v, broken_ok, by decide, h1, by simpa using congrArg List.length h2⟩

end Verif.Props
