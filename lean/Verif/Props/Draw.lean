import Verif.Model.Draw
import Verif.Props.MsExtract
import Verif.Props.ExtractWitness
import Verif.Props.LinearExtract
import Verif.Props.ExtractV1

/-!
# Properties C90 and C91: drawing a region, the chessboard
-/

namespace Verif.Props

open Verif.Spec Verif.Draw
open Verif.Extract (Rect)

variable {κ : Type}

/-! ### C90: pictures of regions -/

/-- The picture shows the set `S` of points: some translation moves `S` into the picture, and the pixels at these places,
and no others, have the foreground colour; the rest is background. -/
structure Shows (fg bg : κ) (S : Int × Int → Prop) (p : Pic κ) : Prop where
  shift : ∃ dx dy : Int, (∀ pt, S pt → 0 ≤ pt.1 + dx ∧ pt.1 + dx < p.cols ∧ 0 ≤ pt.2 + dy ∧ pt.2 + dy < p.rows) ∧
    ∀ x y, 0 ≤ x → x < p.cols → 0 ≤ y → y < p.rows →
      (S (x - dx, y - dy) → p.px y x = fg) ∧ (¬ S (x - dx, y - dy) → p.px y x = bg)

/-- As `Shows`, without the demand that all points are in the picture. -/
def ShowsPart (fg bg : κ) (S : Int × Int → Prop) (dx dy : Int) (p : Pic κ) : Prop :=
  ∀ x y, 0 ≤ x → x < p.cols → 0 ≤ y → y < p.rows →
    (S (x - dx, y - dy) → p.px y x = fg) ∧ (¬ S (x - dx, y - dy) → p.px y x = bg)

theorem draw_step (fg : κ) (R : Rect) (p : Pic κ) (pt : Int × Int) :
    ∃ p', drawPoint fg R p pt = some p' ∧ p'.rows = p.rows ∧ p'.cols = p.cols ∧
      ∀ x y, 0 ≤ x → x < p.cols → 0 ≤ y → y < p.rows →
        p'.px y x = if x = pt.1 - R.left + expendWidth R ∧ y = pt.2 - R.top + expendHeight R then fg else p.px y x := by
  by_cases h : pointInImage p (pt.1 - R.left + expendWidth R) (pt.2 - R.top + expendHeight R) = true
  · have h' := of_decide_eq_true h
    refine ⟨⟨p.rows, p.cols, fun y' x' => if y' = pt.2 - R.top + expendHeight R ∧ x' = pt.1 - R.left + expendWidth R
        then fg else p.px y' x'⟩,
      by rw [drawPoint, if_pos h, setPixel, if_pos ⟨by omega, by omega, by omega, by omega⟩], rfl, rfl, ?_⟩
    intro x y _ _ _ _
    dsimp only
    split <;> split <;> first | rfl | (exfalso; omega)
  · refine ⟨p, by rw [drawPoint, if_neg h], rfl, rfl, ?_⟩
    have h' : ¬ (0 ≤ pt.1 - R.left + expendWidth R ∧ 0 ≤ pt.2 - R.top + expendHeight R ∧
        pt.1 - R.left + expendWidth R < p.cols ∧ pt.2 - R.top + expendHeight R < p.rows) := by
      intro e; exact h (decide_eq_true e)
    intro x y _ _ _ _
    rw [if_neg]
    rintro ⟨rfl, rfl⟩
    exact h' ⟨by omega, by omega, by omega, by omega⟩

theorem draw_list (fg bg : κ) (R : Rect) (S : Int × Int → Prop) (D : List (Int × Int)) (p : Pic κ)
    (hp : ShowsPart fg bg S (expendWidth R - R.left) (expendHeight R - R.top) p) :
    ∃ p', D.foldlM (drawPoint fg R) p = some p' ∧ p'.rows = p.rows ∧ p'.cols = p.cols ∧
      ShowsPart fg bg (fun pt => S pt ∨ pt ∈ D) (expendWidth R - R.left) (expendHeight R - R.top) p' := by
  induction D generalizing p S with
  | nil => exact ⟨p, rfl, rfl, rfl, by simpa using hp⟩
  | cons a D ih =>
    obtain ⟨p1, e1, r1, c1, s1⟩ := draw_step fg R p a
    obtain ⟨p2, e2, r2, c2, s2⟩ := ih (fun pt => S pt ∨ pt = a) p1 (by
      intro x y h1 h2 h3 h4
      rw [c1] at h2
      rw [r1] at h4
      rw [s1 x y h1 h2 h3 h4]
      obtain ⟨ha, hb⟩ := hp x y h1 h2 h3 h4
      have hx : (x - (expendWidth R - R.left), y - (expendHeight R - R.top)) = a ↔
          x = a.1 - R.left + expendWidth R ∧ y = a.2 - R.top + expendHeight R := by
        rw [Prod.ext_iff]; dsimp only; omega
      constructor
      · rintro (h | h)
        · rw [ha h, ite_self]
        · rw [if_pos (hx.1 h)]
      · intro h
        rw [if_neg fun e => h (.inr (hx.2 e)), hb fun e => h (.inl e)])
    refine ⟨p2, by rw [List.foldlM_cons, e1]; exact e2, r2.trans r1, c2.trans c1, ?_⟩
    intro x y h1 h2 h3 h4
    obtain ⟨ha, hb⟩ := s2 x y h1 h2 h3 h4
    constructor
    · intro h
      refine ha ?_
      rcases h with h | h
      · exact .inl (.inl h)
      · rcases List.mem_cons.1 h with h | h
        · exact .inl (.inr h)
        · exact .inr h
    · intro h
      refine hb ?_
      rintro ((h' | h') | h')
      · exact h (.inl h')
      · exact h (.inr (h' ▸ List.mem_cons_self))
      · exact h (.inr (List.mem_cons_of_mem _ h'))

/-- **C90** (partial: C27 does not hold for V2) Drawing never writes outside the picture.  The picture is as large as the rectangle, with equal margins on both sides of
the shorter direction so that it is a square up to one row or column, and it shows those points of the record that are in
it. -/
theorem C90_any_record_partial (fg bg : κ) (R : Rect) (D : List (Int × Int)) :
    ∃ p mx my, imageFromMser fg bg R D = some p ∧ p.cols = R.width + 2 * mx ∧ p.rows = R.height + 2 * my ∧ 0 ≤ mx ∧ 0 ≤ my ∧
      (mx = 0 ∨ my = 0) ∧ max R.width R.height - 1 ≤ min p.cols p.rows ∧ max p.cols p.rows = max R.width R.height ∧
      ShowsPart fg bg (· ∈ D) (mx - R.left) (my - R.top) p := by
  obtain ⟨p, e, hr, hc, hs⟩ := draw_list fg bg R (fun _ => False) D (blank bg R)
    (fun x y _ _ _ _ => ⟨fun h => h.elim, fun _ => rfl⟩)
  simp only [false_or] at hs
  have h1 : p.cols = R.width + expendWidth R * 2 := hc
  have h2 : p.rows = R.height + expendHeight R * 2 := hr
  refine ⟨p, expendWidth R, expendHeight R, e, by omega, by omega, ?_, ?_, ?_, ?_, ?_, hs⟩
  all_goals simp only [h1, h2, expendWidth, expendHeight] at *
  all_goals split_ifs <;> omega

/-- **C90** If the rectangle of a record is the bounding box of its points, the picture shows exactly the region: no pixel of it is
lost, none is added. -/
theorem C90_shows (fg bg : κ) {R : Rect} {D : List (Int × Int)} (hB : IsBoundingBox D R) :
    ∃ p, imageFromMser fg bg R D = some p ∧ Shows fg bg (· ∈ D) p ∧ max p.cols p.rows = max R.width R.height ∧
      max p.cols p.rows - 1 ≤ min p.cols p.rows := by
  obtain ⟨a, ha, _⟩ := hB.left
  have hin := hB.inside a ha
  obtain ⟨p, mx, my, e, h1, h2, h3, h4, _, h5, h6, h7⟩ := C90_any_record_partial fg bg R D
  refine ⟨p, e, ⟨mx - R.left, my - R.top, fun pt hpt => ?_, h7⟩, h6, by omega⟩
  have := hB.inside pt hpt
  omega

/-- **C90** The ms detector: every record can be drawn, and the picture shows a connected component. -/
theorem C90_ms {w h : Nat} {img : Nat → Nat → Nat} {cfg : Recog.Cfg} {b : FloodMem.Buf} {ls : Nat → Nat} {fromMin : Bool}
    (fg bg : κ) (hI : ImageOK w h img 0)
    (h0 : b.top 0 = 0) (hg : grayCount w h img 0 < 256) (h64 : Rounding cfg.r64) (thr : Int) (hmem : w * h < 2 ^ 22)
    (var : Nat → ℚ) (msize exceed : Nat) (heap0 : Extract.Reg → Option Int) (junk : Extract.Reg → Nat) :
    ∃ ms out X, Ms.buildTree w h img 0 fromMin (5 * (w * h)) b ls = .done ms ∧
      Ms.recognize cfg ms.nreg ms.regs var msize exceed = some out ∧
      Ms.extract w h ms.nreg ms.words thr 0 258 heap0 junk out = some X ∧
      ∀ i, i < X.count → ∃ D p, Ms.pointsM X i = some D ∧ IsComponentAt w h (fun p => img p.1 p.2) (X.ms i).gray D ∧
        imageFromMser fg bg (X.ms i).rect D = some p ∧ Shows fg bg (· ∈ D) p := by
  obtain ⟨ms, out, X, h1, h2, h3, h4⟩ := C88_dark_partial (cfg := cfg) (b := b) (ls := ls) (fromMin := fromMin) hI h0 hg h64 thr
    hmem var msize exceed heap0 junk
  refine ⟨ms, out, X, h1, h2, h3, fun i hi => ?_⟩
  obtain ⟨D, k1, -, k3, k4, -⟩ := h4 i hi
  obtain ⟨p, e, hp, -⟩ := C90_shows fg bg k4
  exact ⟨D, p, k1, k3, e, hp⟩

/-- The rectangles of V1 are bounding boxes in the sense used here. -/
theorem boxOf_bounding {l : List (Nat × Nat)} {R : Rect} (hB : BoxOf l R) :
    IsBoundingBox (l.map fun q => ((q.1 : Int), (q.2 : Int))) R := by
  obtain ⟨hi, ⟨a, a1, a2⟩, ⟨c, c1, c2⟩, ⟨d, d1, d2⟩, ⟨e, e1, e2⟩⟩ := hB
  refine ⟨fun p hp => ?_, ⟨_, List.mem_map_of_mem a1, a2⟩, ⟨_, List.mem_map_of_mem d1, d2⟩,
    ⟨_, List.mem_map_of_mem c1, ?_⟩, ⟨_, List.mem_map_of_mem e1, ?_⟩⟩
  · obtain ⟨q, hq, rfl⟩ := List.mem_map.1 hp
    exact hi q hq
  · dsimp only; omega
  · dsimp only; omega

theorem C90_v1_list (fg bg : κ) {R : Rect} {l : List (Nat × Nat)} (hB : BoxOf l R) :
    ∃ p, imageFromMser fg bg R (l.map fun q => ((q.1 : Int), (q.2 : Int))) = some p ∧
      Shows fg bg (fun pt => ∃ q ∈ l, pt = ((q.1 : Int), (q.2 : Int))) p := by
  obtain ⟨p, e, hp, -⟩ := C90_shows fg bg (boxOf_bounding hB)
  refine ⟨p, e, ?_⟩
  have : (fun pt => ∃ q ∈ l, pt = ((q.1 : Int), (q.2 : Int))) = (· ∈ l.map fun q => ((q.1 : Int), (q.2 : Int))) := by
    funext pt
    simp only [List.mem_map, eq_iff_iff]
    exact ⟨fun ⟨q, h1, h2⟩ => ⟨q, h1, h2.symm⟩, fun ⟨q, h1, h2⟩ => ⟨q, h1, h2.symm⟩⟩
  rw [this]; exact hp

/-- **C90** V1 with several threads: every record of C68 is drawn completely. -/
theorem C90_v1 (fg bg : κ) {ι : Type} {x : V1.XOutV1} {w h : Nat} {img : Nat → Nat → Nat} {gm : Nat}
    {T : RegionTree (Nat × Nat) ι} {reported : List ι}
    (hR : List.Forall₂ (fun r rec => ∃ l, V1.readRange x rec = some l ∧ RecordOf w h img gm T r l rec ∧ BoxOf l rec.rect)
      reported x.recs) :
    List.Forall₂ (fun r rec => ∃ l p, V1.readRange x rec = some l ∧
      imageFromMser fg bg rec.rect (l.map fun q => ((q.1 : Int), (q.2 : Int))) = some p ∧
      Shows fg bg (fun pt => ∃ q ∈ pixels w h, T.Under r q ∧ pt = ((q.1 : Int), (q.2 : Int))) p) reported x.recs := by
  refine hR.imp ?_
  rintro r rec ⟨l, h1, h2, h3⟩
  obtain ⟨p, e, hp⟩ := C90_v1_list fg bg h3
  refine ⟨l, p, h1, e, ?_⟩
  have : (fun pt : Int × Int => ∃ q ∈ pixels w h, T.Under r q ∧ pt = ((q.1 : Int), (q.2 : Int))) =
      fun pt => ∃ q ∈ l, pt = ((q.1 : Int), (q.2 : Int)) := by
    funext pt
    simp only [h2.mem, eq_iff_iff]
    exact ⟨fun ⟨q, a, b, c⟩ => ⟨q, ⟨a, b⟩, c⟩, fun ⟨q, ⟨a, b⟩, c⟩ => ⟨q, a, b, c⟩⟩
  rw [this]; exact hp

/-- **C90** The linear detector: the records of C75 are drawn completely. -/
theorem C90_linear (fg bg : κ) {D : Linear.Dim} {cfg : Recog.Cfg} {gm : Nat} {s : Linear.St} {g : Nat → Nat}
    {lab : Nat × Nat → Nat} {x : Linear.XOutL} {r : Nat} {rec : Linear.RecL} (hR : Recorded D cfg gm s g lab x r rec) :
    ∃ pts p, Linear.readShare x rec = some pts ∧
      imageFromMser fg bg rec.rect (pts.map fun q => ((q.1 : Int), (q.2 : Int))) = some p ∧
      Shows fg bg (fun pt => ∃ q ∈ pixels D.w D.h, (treeOfL s g lab).Under r q ∧ pt = ((q.1 : Int), (q.2 : Int))) p := by
  obtain ⟨pts, h1, -, -, h4, h5⟩ := hR.read
  have hB : BoxOf pts rec.rect := by
    obtain ⟨a, b, c, d, e⟩ := h4
    refine ⟨a, b, ?_, d, ?_⟩
    · obtain ⟨q, h1, h2⟩ := c; exact ⟨q, h1, by omega⟩
    · obtain ⟨q, h1, h2⟩ := e; exact ⟨q, h1, by omega⟩
  obtain ⟨p, e, hp⟩ := C90_v1_list fg bg hB
  refine ⟨pts, p, h1, e, ?_⟩
  have : (fun pt : Int × Int => ∃ q ∈ pixels D.w D.h, (treeOfL s g lab).Under r q ∧ pt = ((q.1 : Int), (q.2 : Int))) =
      fun pt => ∃ q ∈ pts, pt = ((q.1 : Int), (q.2 : Int)) := by
    funext pt
    simp only [h5, eq_iff_iff]
    exact ⟨fun ⟨q, a, b, c⟩ => ⟨q, ⟨a, b⟩, c⟩, fun ⟨q, ⟨a, b⟩, c⟩ => ⟨q, a, b, c⟩⟩
  rw [this]; exact hp

/-- **C90** (violated for V2) With four threads the one region of the 6×2 image of C27 has four pixels and is three pixels wide; its picture
has 2×2 pixels. -/
theorem C90_v2_false {msize exceed : Nat} (v : Nat × Nat → ℚ) (thr : Int) (heap0 : Extract.Reg → Option Int)
    (jk : Int × Int × Int) (junk : Extract.Reg → Nat) (fg bg : κ) :
    ∃ ms W out X D p, Suitable 6 2 notchImg 0 20000 6000000 ms lenientCfg ∧
      Pipeline 6 2 0 20000 6000000 ms lenientCfg msize exceed v thr heap0 jk junk W out X ∧ X.count = 1 ∧
      Extract.points X 0 = some D ∧ imageFromMser fg bg (X.ms 0).rect D = some p ∧ p.cols = 2 ∧ p.rows = 2 ∧
      ¬ Shows fg bg (· ∈ D) p := by
  obtain ⟨ms, W, out, X, D, hS, hX, hc, hD, h21, hR, hB⟩ := C27_false (msize := msize) (exceed := exceed) v thr heap0 jk junk
  obtain ⟨D', hD', hlow, ⟨a, a1, a2⟩, -⟩ := C27_left_top_partial hS hX (by decide) (by decide) (i := 0) (by omega)
  obtain rfl := Option.some.inj (hD.symm.trans hD')
  rw [hR] at a2
  dsimp only at a2
  obtain ⟨p, mx, my, e, h1, h2, h3, h4, h5, h6, h7, h8⟩ := C90_any_record_partial fg bg (X.ms 0).rect D
  rw [hR] at h1 h2 h6 h7
  dsimp only at h1 h2 h6 h7
  refine ⟨ms, W, out, X, D, p, hS, hX, hc, hD, e, by omega, by omega, ?_⟩
  rintro ⟨dx, dy, hin, -⟩
  have k1 := hin _ h21
  have k2 := hin _ a1
  dsimp only at k1
  omega

/-- A record meets the hypotheses of `C90_shows`: three pixels in an L. -/
example : IsBoundingBox [(4, 2), (4, 3), (5, 3)] ⟨4, 2, 2, 2⟩ := by
  refine ⟨?_, ⟨(4, 2), by decide, rfl⟩, ⟨(4, 2), by decide, rfl⟩, ⟨(5, 3), by decide, rfl⟩, ⟨(4, 3), by decide, rfl⟩⟩
  decide

/-- A flat rectangle gets margins: a region of 5×1 pixels is drawn in the middle of a 5×5 picture. -/
example : ((imageFromMser 1 0 ⟨3, 7, 5, 1⟩ [(3, 7), (4, 7), (5, 7), (6, 7), (7, 7)]).map fun p =>
    (p.rows, p.cols, (List.range 5).map fun y => (List.range 5).map fun x => p.px y x)) =
    some (5, 5, [[0, 0, 0, 0, 0], [0, 0, 0, 0, 0], [1, 1, 1, 1, 1], [0, 0, 0, 0, 0], [0, 0, 0, 0, 0]]) := by
  decide +kernel

/-! ### C91: the chessboard -/

/-- **C91** The chessboard: squares of the given size, black if the numbers of the square's row and column have the same parity, white
otherwise. -/
theorem C91_chessboard (n row col : Nat) (hn : 0 < n) :
    chessPixel n row col = some (if (row / n + col / n) % 2 = 0 then 0 else 255) := by
  have hn' : (n : Int) ≠ 0 := by omega
  have key : ∀ c : Nat, chessRow n row (c + 1) = some (((c / n : Nat) : Int), if (row / n + c / n) % 2 = 0 then 0 else 255) := by
    intro c
    induction c with
    | zero =>
      have h0 : ((row : Int).tdiv n).tmod 2 = (((row / n) % 2 : Nat) : Int) := by
        rw [← Int.ofNat_tdiv]; rfl
      simp only [chessRow, if_neg hn', Option.bind_some, h0]
      norm_num
      split_ifs <;> first | rfl | (exfalso; omega)
    | succ c ih =>
      rw [chessRow, ih]
      simp only [Option.bind_some, Option.some.injEq, Prod.mk.injEq]
      have h1 : ((c + 1 : Nat) : Int).tdiv n = (((c + 1) / n : Nat) : Int) := by rw [← Int.ofNat_tdiv]
      refine ⟨h1, ?_⟩
      rw [h1]
      have h2 : (c + 1) / n = c / n ∨ (c + 1) / n = c / n + 1 := by
        rw [Nat.succ_div]; split <;> simp
      rcases h2 with h2 | h2
      · rw [h2]; simp
      · rw [h2, if_pos (by push_cast; omega)]
        split_ifs <;> first | rfl | (exfalso; omega)
  rw [chessPixel, key]; rfl

/-- **C91** A chess size of 0 divides by 0. -/
theorem C91_size_zero (row col : Nat) : chessPixel 0 row col = none := by
  have : ∀ c, chessRow 0 row c = none := by
    intro c
    induction c with
    | zero => rfl
    | succ c ih => rw [chessRow, ih]; rfl
  rw [chessPixel, this]; rfl

/-- Some squares. -/
example : chessPixel 3 2 2 = some 0 ∧ chessPixel 3 2 3 = some 255 ∧ chessPixel 3 3 3 = some 0 := by decide

end Verif.Props
