import Verif.Proof.ComponentsBounds
import Verif.Props.Rect
import Mathlib.Data.List.ProdSigma

/-!
# Properties of the connected component extraction: C36, C58
-/

namespace Verif.Props

open Verif.Components Verif.Rectangle Verif.Spec

/-- A pixel of the image. -/
def InImage (I : Img) (p : Int × Int) : Prop := 0 ≤ p.1 ∧ p.1 < I.W ∧ 0 ≤ p.2 ∧ p.2 < I.H

/-- The pixels that count: all, those of a rectangle, those that differ from the value in some channel, those whose mask
is 1. -/
def Counts (I : Img) : Mask → Int × Int → Prop
  | .null, p => InImage I p
  | .rect r, p => Covers r p.1 p.2
  | .value v, p => InImage I p ∧ ∃ c, c < I.ch ∧ I.src ((p.2 * I.W + p.1) * I.ch + c) ≠ v c
  | .image k, p => InImage I p ∧ k (p.2 * I.W + p.1) = 1

/-- **C36**, the full statement: the extraction ends without undefined behaviour, gives the connected components of the
pixels that count, each with the smallest rectangle around it. -/
def Extracts (m : Mode) (I : Img) (mask : Mask) (eight : Bool) : Prop :=
  ∃ res, extract m I mask eight = some res ∧ IsComponents eight (Counts I mask) (res.map Prod.fst) ∧
    ∀ c ∈ res, SmallestFor (fun x y => (x, y) ∈ c.1) c.2

/-- Rectangles lie in the image; with a value some pixel differs from it. -/
def Usable (I : Img) : Mask → Prop
  | .null => True
  | .rect r => 0 ≤ r.width ∧ 0 ≤ r.height ∧ 0 ≤ r.left ∧ 0 ≤ r.top ∧ r.left + r.width ≤ I.W ∧ r.top + r.height ≤ I.H
  | .value v => ∃ p, Counts I (.value v) p
  | .image _ => False

theorem elem_at (I : Img) {x y : Int} (h : InImage I (x, y)) :
    I.elem ((y * I.W + x) * I.ch) = some fun j : Nat => I.src ((y * I.W + x) * I.ch + j) := by
  obtain ⟨h1, h2, h3, h4⟩ := h
  dsimp only at h1 h2 h3 h4
  have hk : 0 ≤ y * I.W + x := Int.add_nonneg (Int.mul_nonneg h3 (by omega)) h1
  have hl : y * I.W + x + 1 ≤ (I.H : Int) * I.W := by
    have := Int.mul_le_mul_of_nonneg_right (show y + 1 ≤ (I.H : Int) by omega) (show (0 : Int) ≤ I.W by omega)
    rw [Int.add_mul, Int.one_mul] at this
    omega
  have := Int.mul_le_mul_of_nonneg_right hl (show (0 : Int) ≤ I.ch by omega)
  rw [Int.add_mul, Int.one_mul] at this
  exact if_pos ⟨Int.mul_nonneg hk (by omega), by push_cast; exact this⟩

theorem keepValue_iff (I : Img) (v : Nat → Nat) {x y : Int} (h : InImage I (x, y)) :
    (I.elem ((y * I.W + x) * I.ch)).map (fun e => differs I.ch e v) = some true ↔ Counts I (.value v) (x, y) := by
  rw [elem_at I h]
  simp only [Option.map_some, Option.some.injEq, differs, List.any_eq_true, List.mem_range, decide_eq_true_eq, Counts]
  exact ⟨fun h' => ⟨h, h'⟩, fun h' => h'.2⟩

theorem ptr_repaired (I : Img) (top left : Int) (ix : Bool) : I.ptr ⟨true, ix⟩ top left = (top * I.W + left) * I.ch := by
  simp only [Img.ptr, if_true]; push_cast; ring

theorem kept_at (I : Img) (ix : Bool) (r : Rect) (y x : Int) :
    I.ptr ⟨true, ix⟩ r.top r.left + (y - r.top) * (I.W * I.ch) + (x - r.left) * I.ch = (y * I.W + x) * I.ch := by
  rw [ptr_repaired]; ring

/-- Scan and result, once the temporary image is filled. -/
theorem extract_of_fill {I : Img} {mask : Mask} {r : Rect} {w h n area : Nat} {t : Tmp} {keep : Int → Option Bool}
    (hw : r.width = w) (hh : r.height = h) (hf : fill I .repaired keep r true = some (n, t))
    (hst : start .repaired I mask = some ⟨r, t, area⟩)
    (hK : ∀ p, Kept I .repaired keep r p ↔ Counts I mask p)
    (ha : ∃ l : List (Nat × Nat), l.length = area ∧
      ∀ i j : Nat, i < h → j < w → Kept I .repaired keep r (r.left + j, r.top + i) → (i, j) ∈ l) (eight : Bool) :
    Extracts .repaired I mask eight := by
  obtain ⟨l, rfl, hl⟩ := ha
  have hKe : Kept I .repaired keep r = Counts I mask := funext fun p => propext (hK p)
  have F := flags_ok (area := l.length) (o := origin .repaired (1 + I.ch) r.width) (ix := Mode.repaired.index) hw hh hf
  have R : Ready ⟨1 + I.ch, r, l.length, origin .repaired (1 + I.ch) r.width, Mode.repaired.index⟩ (Kept I .repaired keep r) := by
    refine ⟨by dsimp only; omega, fun p hp => hp.1, ?_, rfl, fun L hL hLK => area_ok hw hh (fun p hp => hp.1) hl L hL hLK⟩
    simp only [Env.addr, origin, Mode.repaired, if_true]
    ring
  obtain ⟨S, e1, e2, e3⟩ := scan_ok R eight (by dsimp only; omega) (by dsimp only; omega) F
  refine ⟨finish S, ?_, hKe ▸ e2, fun c hc => ?_⟩
  · unfold extract
    rw [hst, Option.bind_some]
    dsimp only at e1 ⊢
    rw [e1, Option.bind_some]
  · obtain ⟨hne, hr⟩ := e3 c hc
    cases hc1 : c.1 with
    | nil => exact absurd hc1 hne
    | cons p ps =>
      have := C35_smallest (r := ⟨0, 0, 0, 0⟩) rfl (i := .point p) (l := ps.map .point) (by
        intro j hj
        rcases List.mem_cons.1 hj with rfl | hj
        · trivial
        · obtain ⟨q, _, rfl⟩ := List.mem_map.1 hj
          trivial)
      have ef : ∀ (qs : List (Int × Int)) (a : Rect), (qs.map Item.point).foldl appendItem a = qs.foldl Rect.appendPoint a := by
        intro qs
        induction qs with
        | nil => intro a; rfl
        | cons q qs ih => intro a; exact ih _
      rw [← List.map_cons, ef, ← hc1, ← hr] at this
      have eP : (fun x y => ∃ j ∈ c.1.map Item.point, j.Has x y) = fun x y => (x, y) ∈ c.1 := by
        funext x y
        refine propext ⟨?_, fun h => ⟨.point (x, y), List.mem_map.2 ⟨_, h, rfl⟩, rfl, rfl⟩⟩
        rintro ⟨j, hj, hx⟩
        obtain ⟨q, hq, rfl⟩ := List.mem_map.1 hj
        obtain ⟨rfl, rfl⟩ := hx
        exact hq
      rw [eP] at this
      rw [← hc1]
      exact this

theorem rect_case {I : Img} {r : Rect} (hu : Usable I (.rect r)) {mask : Mask}
    (hst : ∀ m, start m I mask = (fill I m (fun _ => some true) r true).bind fun q =>
      some ⟨r, q.2, (r.width * r.height).toNat⟩)
    (hc : ∀ p, Counts I mask p ↔ Covers r p.1 p.2) (eight : Bool) : Extracts .repaired I mask eight := by
  obtain ⟨h1, h2, h3, h4, h5, h6⟩ := hu
  have hw : r.width = (r.width.toNat : Nat) := by omega
  have hh : r.height = (r.height.toNat : Nat) := by omega
  obtain ⟨n, t, hf⟩ := fill_ok (I := I) (m := .repaired) (keep := fun _ => some true) hw hh fun i j hi hj => by
    refine ⟨true, rfl, fun _ => ?_⟩
    have e := kept_at I true r (r.top + i) (r.left + j)
    rw [show r.top + (i : Int) - r.top = i by omega, show r.left + (j : Int) - r.left = j by omega] at e
    rw [show Mode.repaired = ⟨true, true⟩ from rfl, e]
    exact ⟨_, elem_at I (x := r.left + j) (y := r.top + i) ⟨by dsimp only; omega, by dsimp only; omega, by dsimp only; omega, by dsimp only; omega⟩⟩
  refine extract_of_fill hw hh hf (by rw [hst, hf, Option.bind_some]) (fun p => ?_)
    ⟨(List.range r.height.toNat) ×ˢ (List.range r.width.toNat), ?_, fun i j hi hj _ => by simp [hi, hj]⟩ eight
  · rw [hc]
    exact ⟨fun h => h.1, fun h => ⟨h, rfl⟩⟩
  · rw [List.length_product, List.length_range, List.length_range]
    generalize r.width.toNat = a at hw
    generalize r.height.toNat = b at hh
    rw [hw, hh]
    rw [show ((a : Int) * b) = ((b * a : Nat) : Int) by push_cast; ring, Int.toNat_natCast]

theorem value_bounds {I : Img} {v : Nat → Nat} {p : Int × Int} (hp : Counts I (.value v) p) {b : Bounds}
    (hb : boundsRows (fun a => (I.elem a).map fun x => differs I.ch x v) I.ch I.W I.H 0 0 ⟨0, 0, I.H, I.W⟩ = some b) :
    1 ≤ b.rect.width ∧ 1 ≤ b.rect.height ∧ 0 ≤ b.rect.left ∧ 0 ≤ b.rect.top ∧ b.rect.left + b.rect.width ≤ I.W ∧
      b.rect.top + b.rect.height ≤ I.H ∧ ∀ q, Counts I (.value v) q → Covers b.rect q.1 q.2 := by
  obtain ⟨w, hk, _⟩ := boundsRows_eq _ _ _ _ hb
  have has : ∀ q, Counts I (.value v) q → b.Has q.2 q.1 := by
    intro q hq
    have hq' := hq
    obtain ⟨⟨a1, a2, a3, a4⟩, _⟩ := hq
    have e1 : ((q.2.toNat : Nat) : Int) = q.2 := by omega
    have e2 : ((q.1.toNat : Nat) : Int) = q.1 := by omega
    have := hk q.2.toNat q.1.toNat (by omega) (by omega)
    rw [e1, e2] at this
    simp only [Int.zero_add] at this
    apply this
    rw [show q.2 * ((I.W : Int) * I.ch) + q.1 * I.ch = (q.2 * I.W + q.1) * I.ch by ring]
    exact (keepValue_iff I v ⟨a1, a2, a3, a4⟩).2 hq'
  have h1 := has p hp
  obtain ⟨⟨a1, a2, a3, a4⟩, _⟩ := hp
  have h2 := w.rowMax.2 (I.H - 1) (by dsimp only; omega) (by omega)
  have h3 := w.colMax.2 (I.W - 1) (by dsimp only; omega) (by omega)
  have h4 := w.rowMin.2 0 (by dsimp only; omega) (by omega)
  have h5 := w.colMin.2 0 (by dsimp only; omega) (by omega)
  simp only [Bounds.rect]
  unfold Bounds.Has at h1
  refine ⟨by omega, by omega, by omega, by omega, by omega, by omega, fun q hq => ?_⟩
  have := has q hq
  unfold Bounds.Has at this
  unfold Covers
  dsimp only
  omega

/-- **C36** (what holds once the two defects are repaired) For images with any number of channels, whole or with a
rectangle or a background value as mask. -/
theorem C36_repaired_partial {I : Img} {mask : Mask} (hu : Usable I mask) (eight : Bool) :
    Extracts .repaired I mask eight := by
  cases mask with
  | image k => exact hu.elim
  | rect r => exact rect_case hu (fun _ => rfl) (fun _ => Iff.rfl) eight
  | null =>
    refine rect_case (r := ⟨0, 0, I.W, I.H⟩) ?_ (fun _ => rfl) (fun p => ?_) eight
    · simp only [Usable]; omega
    · simp only [Counts, InImage, Covers]; omega
  | value v =>
    obtain ⟨p, hp⟩ := hu
    obtain ⟨b, hb⟩ := boundsRows_ok (keep := fun a => (I.elem a).map fun x => differs I.ch x v) (sz := I.ch) (W := I.W) I.H 0 0
      ⟨0, 0, I.H, I.W⟩ fun i j hi hj => by
        have := elem_at I (x := j) (y := i) ⟨by dsimp only; omega, by dsimp only; omega, by dsimp only; omega, by dsimp only; omega⟩
        rw [show (0 : Int) + i * (I.W * I.ch) + j * I.ch = (i * I.W + j) * I.ch by ring, this]
        exact ⟨_, rfl⟩
    obtain ⟨h1, h2, h3, h4, h5, h6, h7⟩ := value_bounds hp hb
    have hw : b.rect.width = (b.rect.width.toNat : Nat) := by omega
    have hh : b.rect.height = (b.rect.height.toNat : Nat) := by omega
    obtain ⟨n, t, hf⟩ := fill_ok (I := I) (m := .repaired) (keep := fun a => (I.elem a).map fun x => differs I.ch x v) hw hh
      fun i j hi hj => by
        have e := kept_at I true b.rect (b.rect.top + i) (b.rect.left + j)
        rw [show b.rect.top + (i : Int) - b.rect.top = i by omega, show b.rect.left + (j : Int) - b.rect.left = j by omega] at e
        have := elem_at I (x := b.rect.left + j) (y := b.rect.top + i)
          ⟨by dsimp only; omega, by dsimp only; omega, by dsimp only; omega, by dsimp only; omega⟩
        rw [show Mode.repaired = ⟨true, true⟩ from rfl, e, this]
        exact ⟨_, rfl, fun _ => ⟨_, rfl⟩⟩
    have hK : ∀ p, Kept I .repaired (fun a => (I.elem a).map fun x => differs I.ch x v) b.rect p ↔ Counts I (.value v) p := by
      intro p
      unfold Kept
      rw [show Mode.repaired = ⟨true, true⟩ from rfl, kept_at]
      constructor
      · rintro ⟨⟨a1, a2, a3, a4⟩, hk⟩
        exact (keepValue_iff I v (x := p.1) (y := p.2)
          ⟨by dsimp only; omega, by dsimp only; omega, by dsimp only; omega, by dsimp only; omega⟩).1 hk
      · intro hc
        exact ⟨h7 p hc, (keepValue_iff I v (x := p.1) (y := p.2) hc.1).2 hc⟩
    obtain ⟨_, _, _, ⟨l, hl1, hl2⟩, _⟩ := fill_eq hw hh hf
    refine extract_of_fill hw hh hf ?_ hK ⟨l, hl1.symm, fun i j hi hj hk => hl2 i j hi hj ?_⟩ eight
    · simp only [start]
      rw [hb, Option.bind_some, hf, Option.bind_some]
    · have := hk.2
      dsimp only at this
      rw [show b.rect.top + (i : Int) - b.rect.top = i by omega, show b.rect.left + (j : Int) - b.rect.left = j by omega] at this
      exact this

/-- What the first steps give when the extraction succeeds. -/
theorem extract_some {m : Mode} {I : Img} {mask : Mask} (hu : Usable I mask) {p : Int × Int} (hp : Counts I mask p) {eight : Bool}
    {res} (h : extract m I mask eight = some res) :
    ∃ (r : Rect) (w h n area : Nat) (t : Tmp) (keep : Int → Option Bool) (S : St), r.width = (w + 1 : Nat) ∧
      r.height = (h + 1 : Nat) ∧ fill I m keep r true = some (n, t) ∧
      scanRows ⟨1 + I.ch, r, area, origin m (1 + I.ch) r.width, m.index⟩ (offsets (1 + I.ch) r.width eight) (w + 1) (h + 1) 1
        (origin m (1 + I.ch) r.width) ⟨t, [], [], [(0, 0)]⟩ = some S ∧
      (m.column = true → Kept I m keep r p) := by
  unfold extract at h
  rw [Option.bind_eq_some_iff] at h
  obtain ⟨B, hB, h⟩ := h
  rw [Option.bind_eq_some_iff] at h
  obtain ⟨S, hS, _⟩ := h
  have simple : ∀ r : Rect, Covers r p.1 p.2 → (fill I m (fun _ => some true) r true).bind (fun q =>
      some (⟨r, q.2, (r.width * r.height).toNat⟩ : Start)) = some B →
      ∃ (r : Rect) (w h n area : Nat) (t : Tmp) (keep : Int → Option Bool) (S : St), r.width = (w + 1 : Nat) ∧
      r.height = (h + 1 : Nat) ∧ fill I m keep r true = some (n, t) ∧
      scanRows ⟨1 + I.ch, r, area, origin m (1 + I.ch) r.width, m.index⟩ (offsets (1 + I.ch) r.width eight) (w + 1) (h + 1) 1
        (origin m (1 + I.ch) r.width) ⟨t, [], [], [(0, 0)]⟩ = some S ∧
      (m.column = true → Kept I m keep r p) := by
    intro r hc hb
    rw [Option.bind_eq_some_iff] at hb
    obtain ⟨q, hq, hb⟩ := hb
    cases Option.some.inj hb
    have hc' := hc
    obtain ⟨a1, a2, a3, a4⟩ := hc
    refine ⟨r, (r.width - 1).toNat, (r.height - 1).toNat, q.1, (r.width * r.height).toNat, q.2, _, S, by omega, by omega, hq, ?_, fun _ => ⟨hc', rfl⟩⟩
    rw [show (r.width - 1).toNat + 1 = r.width.toNat by omega, show (r.height - 1).toNat + 1 = r.height.toNat by omega]
    exact hS
  cases mask with
  | image k => exact hu.elim
  | null => exact simple ⟨0, 0, I.W, I.H⟩ (by obtain ⟨a1, a2, a3, a4⟩ := hp; unfold Covers; dsimp only; omega) hB
  | rect r => exact simple r hp hB
  | value v =>
    simp only [start] at hB
    rw [Option.bind_eq_some_iff] at hB
    obtain ⟨b, hb, hB⟩ := hB
    rw [Option.bind_eq_some_iff] at hB
    obtain ⟨q, hq, hB⟩ := hB
    cases Option.some.inj hB
    obtain ⟨h1, h2, h3, h4, h5, h6, h7⟩ := value_bounds hp hb
    refine ⟨b.rect, (b.rect.width - 1).toNat, (b.rect.height - 1).toNat, q.1, q.1, q.2, _, S, by omega, by omega, hq, ?_, fun hm => ?_⟩
    · rw [show (b.rect.width - 1).toNat + 1 = b.rect.width.toNat by omega,
        show (b.rect.height - 1).toNat + 1 = b.rect.height.toNat by omega]
      exact hS
    · refine ⟨h7 p hp, ?_⟩
      rw [show m = ⟨true, m.index⟩ by rw [← hm], kept_at]
      exact (keepValue_iff I v (x := p.1) (y := p.2) hp.1).2 hp

/-- **C36** (violated) `ptr(1, 1)` gives the address of a byte that was never written: whatever the image and the mask,
as soon as a pixel counts. -/
theorem C36_false {m : Mode} (hm : m.column = false) {I : Img} (hch : 1 ≤ I.ch) {mask : Mask} (hu : Usable I mask) {p : Int × Int}
    (hp : Counts I mask p) (eight : Bool) : extract m I mask eight = none := by
  rw [Option.eq_none_iff_forall_ne_some]
  intro res h
  obtain ⟨r, w, h', n, area, t, keep, S, hw, hh, hf, hs, _⟩ := extract_some hu hp h
  obtain ⟨_, _, _, _, hnone⟩ := fill_eq hw hh hf
  have h1 := hnone 1 (by omega) (by omega)
  rw [scanRows, scanCols, visit] at hs
  have hr : Tmp.read t (origin m (1 + I.ch) r.width) = none := by
    unfold Tmp.read
    split
    · simp only [origin, hm, Bool.false_eq_true, if_false]
      rw [hw]
      exact h1
    · rfl
  simp only [hr, Option.bind_none] at hs
  cases hs

/-- With an uninitialised index no pixel can be visited that counts. -/
theorem scanCols_stuck {E : Env} (hi : E.index = false) {offs : List Int} {row : Int} : ∀ (k : Nat) (col a : Int) {S : St}
    {r : Int × St}, scanCols E offs row k col a S = some r → r = (a + k * E.s, S) ∧
      ∀ i : Nat, i < k → S.tmp.mem (a + i * E.s) ≠ some 0
  | 0, col, a, S, r, h => by
    cases Option.some.inj h
    exact ⟨by simp, fun i hi => by omega⟩
  | k + 1, col, a, S, r, h => by
    rw [scanCols, Option.bind_eq_some_iff] at h
    obtain ⟨S', h1, h2⟩ := h
    rw [visit, Option.bind_eq_some_iff] at h1
    obtain ⟨f, hf, h1⟩ := h1
    have hf0 : f ≠ 0 := by
      rintro rfl
      simp [hi] at h1
    rw [if_neg hf0] at h1
    cases Option.some.inj h1
    obtain ⟨e1, e2⟩ := scanCols_stuck hi k (col + 1) (a + E.s) h2
    have hm : S.tmp.mem a = some f := by
      unfold Tmp.read at hf
      split at hf
      · exact hf
      · cases hf
    refine ⟨by rw [e1]; refine Prod.ext ?_ rfl; push_cast; ring, fun i hik => ?_⟩
    cases i with
    | zero =>
      rw [show a + ((0 : Nat) : Int) * E.s = a by simp, hm]
      exact fun h => hf0 (Option.some.inj h)
    | succ i =>
      have := e2 i (by omega)
      rwa [show a + (E.s : Int) + i * E.s = a + ((i + 1 : Nat) : Int) * E.s by push_cast; ring] at this

theorem scanRows_stuck {E : Env} (hi : E.index = false) {offs : List Int} {w : Nat} : ∀ (k : Nat) (row a : Int) {S S' : St},
    scanRows E offs w k row a S = some S' → ∀ i j : Nat, i < k → j < w → S.tmp.mem (a + i * ((w + 2) * E.s) + j * E.s) ≠ some 0
  | 0, _, _, _, _, _ => fun i j hi => by omega
  | k + 1, row, a, S, S', h => by
    rw [scanRows, Option.bind_eq_some_iff] at h
    obtain ⟨r, h1, h2⟩ := h
    obtain ⟨e1, e2⟩ := scanCols_stuck hi _ _ _ h1
    have e3 := scanRows_stuck hi k (row + 1) _ h2
    rw [e1] at e3
    dsimp only at e3
    intro i j hik hj
    cases i with
    | zero =>
      rw [show a + ((0 : Nat) : Int) * ((w + 2) * E.s) + j * E.s = a + j * E.s by simp]
      exact e2 j hj
    | succ i =>
      have := e3 i j (by omega) hj
      rwa [show a + (w : Int) * E.s + 2 * E.s + i * ((w + 2) * E.s) + j * E.s =
        a + ((i + 1 : Nat) : Int) * ((w + 2) * E.s) + j * E.s by push_cast; ring] at this

/-- **C36** (violated) With `ptr(1, 1)` repaired, the point index that nothing initialises is used as soon as a pixel
counts. -/
theorem C36_index_false {m : Mode} (hm : m.index = false) (hc : m.column = true) {I : Img} {mask : Mask} (hu : Usable I mask)
    {p : Int × Int} (hp : Counts I mask p) (eight : Bool) : extract m I mask eight = none := by
  rw [Option.eq_none_iff_forall_ne_some]
  intro res h
  obtain ⟨r, w, h', n, area, t, keep, S, hw, hh, hf, hs, hk⟩ := extract_some hu hp h
  obtain ⟨⟨a1, a2, a3, a4⟩, hk⟩ := hk hc
  obtain ⟨_, _, h3, _, _⟩ := fill_eq hw hh hf
  obtain ⟨x, hx, hmem⟩ := h3 (p.2 - r.top).toNat (p.1 - r.left).toNat (by omega) (by omega)
  have e1 : (((p.2 - r.top).toNat : Nat) : Int) = p.2 - r.top := by omega
  have e2 : (((p.1 - r.left).toNat : Nat) : Int) = p.1 - r.left := by omega
  rw [e1, e2] at hx hmem
  rw [hk] at hx
  rw [← Option.some.inj hx] at hmem
  have := scanRows_stuck hm _ _ _ hs (p.2 - r.top).toNat (p.1 - r.left).toNat (by omega) (by omega)
  dsimp only at this
  rw [e1, e2] at this
  refine this ?_
  simp only [if_true] at hmem
  rw [← hmem]
  congr 1
  simp only [origin, hc, if_true]
  rw [hw]
  ring

/-- **C36** (violated) With a mask image the last row of the temporary image is never written: even with both defects
repaired, an image of one pixel gives undefined behaviour. -/
theorem C36_mask_image_false : ∃ (I : Img) (k : Int → Nat), Counts I (.image k) (0, 0) ∧
    ∀ eight, ¬ Extracts .repaired I (.image k) eight := by
  refine ⟨⟨1, 1, 1, fun _ => 7⟩, fun _ => 1, ⟨⟨?_, ?_, ?_, ?_⟩, rfl⟩, fun eight h => ?_⟩
  · decide
  · decide
  · decide
  · decide
  · obtain ⟨res, h, _⟩ := h
    have : extract .repaired ⟨1, 1, 1, fun _ => 7⟩ (.image fun _ => 1) eight = none := by
      cases eight <;> rfl
    rw [this] at h
    cases h

/-- **C58** (violated) For an image of background only, at most two columns wide and at least three rows high, the
rectangle has negative sides, nothing is allocated and the border is written. -/
theorem C58_false {m : Mode} {I : Img} {v : Nat → Nat} (hn : ∀ p, ¬ Counts I (.value v) p) (hW : 1 ≤ I.W) (hW2 : I.W ≤ 2)
    (hH : 3 ≤ I.H) (eight : Bool) : extract m I (.value v) eight = none := by
  unfold extract
  simp only [start]
  obtain ⟨b, hb⟩ := boundsRows_ok (keep := fun a => (I.elem a).map fun x => differs I.ch x v) (sz := I.ch) (W := I.W) I.H 0 0
    ⟨0, 0, I.H, I.W⟩ fun i j hi hj => by
      have := elem_at I (x := j) (y := i) ⟨by dsimp only; omega, by dsimp only; omega, by dsimp only; omega, by dsimp only; omega⟩
      rw [show (0 : Int) + i * (I.W * I.ch) + j * I.ch = (i * I.W + j) * I.ch by ring, this]
      exact ⟨_, rfl⟩
  have hb0 := (boundsRows_eq _ _ _ _ hb).2.2 fun i j hi hj hk => by
    rw [show (0 : Int) + i * (I.W * I.ch) + j * I.ch = (i * I.W + j) * I.ch by ring] at hk
    exact hn (j, i) ((keepValue_iff I v ⟨by dsimp only; omega, by dsimp only; omega, by dsimp only; omega, by dsimp only; omega⟩).1 hk)
  rw [hb, hb0, Option.bind_some]
  have : fill I m (fun a => (I.elem a).map fun x => differs I.ch x v) (Bounds.rect ⟨0, 0, I.H, I.W⟩) true = none := by
    unfold fill
    simp only [Bounds.rect]
    obtain ⟨k, hk⟩ : ∃ k, ((0 : Int) - I.W + 1 + 2).toNat = k + 1 := ⟨((0 : Int) - I.W + 1 + 2).toNat - 1, by omega⟩
    rw [hk, flagRow, Tmp.write, if_neg]
    · rfl
    · rintro ⟨_, hlt⟩
      dsimp only at hlt
      have h1 : ((0 : Int) - I.H + 1 + 2) * (1 + I.ch : Nat) ≤ 0 := Int.mul_nonpos_of_nonpos_of_nonneg (by omega) (by omega)
      have h2 : 0 ≤ ((0 : Int) - I.W + 1 + 2) * (1 + I.ch : Nat) := Int.mul_nonneg (by omega) (by omega)
      have := Int.mul_nonpos_of_nonpos_of_nonneg h1 h2
      omega
  rw [this]
  rfl

/-- **C58** (what holds) In all other cases an image of background only has no components. -/
theorem C58_partial {m : Mode} {I : Img} {v : Nat → Nat} (hn : ∀ p, ¬ Counts I (.value v) p) (hch : 1 ≤ I.ch) (hW : 1 ≤ I.W)
    (hH : 1 ≤ I.H) (h : 3 ≤ I.W ∨ I.H ≤ 2) (eight : Bool) : extract m I (.value v) eight = some [] := by
  unfold extract
  simp only [start]
  obtain ⟨b, hb⟩ := boundsRows_ok (keep := fun a => (I.elem a).map fun x => differs I.ch x v) (sz := I.ch) (W := I.W) I.H 0 0
    ⟨0, 0, I.H, I.W⟩ fun i j hi hj => by
      have := elem_at I (x := j) (y := i) ⟨by dsimp only; omega, by dsimp only; omega, by dsimp only; omega, by dsimp only; omega⟩
      rw [show (0 : Int) + i * (I.W * I.ch) + j * I.ch = (i * I.W + j) * I.ch by ring, this]
      exact ⟨_, rfl⟩
  have hb0 := (boundsRows_eq _ _ _ _ hb).2.2 fun i j hi hj hk => by
    rw [show (0 : Int) + i * (I.W * I.ch) + j * I.ch = (i * I.W + j) * I.ch by ring] at hk
    exact hn (j, i) ((keepValue_iff I v ⟨by dsimp only; omega, by dsimp only; omega, by dsimp only; omega, by dsimp only; omega⟩).1 hk)
  rw [hb, hb0, Option.bind_some]
  have : ∃ q, fill I m (fun a => (I.elem a).map fun x => differs I.ch x v) (Bounds.rect ⟨0, 0, I.H, I.W⟩) true = some q := by
    unfold fill
    simp only [Bounds.rect]
    have hs : (0 : Int) < ((1 + I.ch : Nat) : Int) := by omega
    have hcap : ∀ k : Nat, k ≤ 2 * ((0 : Int) - I.W + 1 + 2).toNat → (k : Int) * (1 + I.ch : Nat) ≤
        ((0 : Int) - I.H + 1 + 2) * (1 + I.ch : Nat) * (((0 : Int) - I.W + 1 + 2) * (1 + I.ch : Nat)) ∨ k = 0 := by
      intro k hk
      by_cases hk0 : k = 0
      · exact .inr hk0
      · left
        have g1 : (1 + I.ch : Nat) ≤ ((0 : Int) - I.H + 1 + 2) * (1 + I.ch : Nat) := by
          have := Int.mul_le_mul_of_nonneg_right (show (1 : Int) ≤ (0 : Int) - I.H + 1 + 2 by omega) (show (0 : Int) ≤ (1 + I.ch : Nat) by omega)
          rwa [Int.one_mul] at this
        have g2 : (2 : Int) ≤ ((0 : Int) - I.H + 1 + 2) * (1 + I.ch : Nat) := by omega
        have g3 : 0 ≤ ((0 : Int) - I.W + 1 + 2) * (1 + I.ch : Nat) := Int.mul_nonneg (by omega) (by omega)
        have g4 := Int.mul_le_mul_of_nonneg_right g2 g3
        have g5 := Int.mul_le_mul_of_nonneg_right (show (k : Int) ≤ 2 * ((0 : Int) - I.W + 1 + 2) by omega) (Int.le_of_lt hs)
        rw [Int.mul_assoc] at g5
        omega
    generalize hN : ((0 : Int) - I.W + 1 + 2).toNat = N at hcap
    rw [show ((0 : Int) - I.H + 1).toNat = 0 by omega]
    obtain ⟨p, hp⟩ : ∃ p, flagRow (1 + I.ch : Nat) N 0 ⟨((0 : Int) - I.H + 1 + 2) * (1 + I.ch : Nat) *
        (((0 : Int) - I.W + 1 + 2) * (1 + I.ch : Nat)), fun _ => none⟩ = some p := by
      rcases hcap N (by omega) with h0 | rfl
      · have := flagRow_ok hs N 0 (t := ⟨((0 : Int) - I.H + 1 + 2) * (1 + I.ch : Nat) *
          (((0 : Int) - I.W + 1 + 2) * (1 + I.ch : Nat)), fun _ => none⟩) (by omega) (by rw [Int.zero_add]; exact h0)
        rwa [Int.zero_mul] at this
      · exact ⟨_, rfl⟩
    rw [hp, Option.bind_some, fillRows, Option.bind_some]
    simp only [if_true]
    rw [show (0 : Int) = 0 * (1 + I.ch : Nat) by simp] at hp
    obtain ⟨a1, a2, _⟩ := flagRow_eq _ _ hp
    obtain ⟨e, he⟩ : ∃ e, flagRow (1 + I.ch : Nat) N p.1 p.2 = some e := by
      rcases hcap (N + N) (by omega) with h0 | h0
      · rw [a1]
        refine flagRow_ok hs N _ (by omega) ?_
        rw [a2, show (0 : Int) + (N : Int) + N = ((N + N : Nat) : Int) by omega]
        simp only [Int.zero_mul]
        exact h0
      · rw [show N = 0 by omega]; exact ⟨_, rfl⟩
    exact ⟨_, by rw [he, Option.bind_some]⟩
  obtain ⟨q, hq⟩ := this
  rw [hq, Option.bind_some, Option.bind_some]
  have e0 : (Bounds.rect ⟨0, 0, I.H, I.W⟩).height.toNat = 0 := by simp only [Bounds.rect]; omega
  rw [e0]
  rfl

/-- An image of three channels with one bright pixel. -/
example : Usable ⟨3, 2, 3, fun a => if a = 4 then 200 else 0⟩ (.value fun _ => 0) :=
  ⟨(1, 0), ⟨by decide, by decide, by decide, by decide⟩, 1, by decide, by decide⟩

example : Usable ⟨3, 2, 3, fun a => if a = 4 then 200 else 0⟩ (.rect ⟨1, 0, 2, 2⟩) := by
  refine ⟨?_, ?_, ?_, ?_, ?_, ?_⟩ <;> decide

example : ∀ p, ¬ Counts ⟨1, 3, 1, fun _ => 0⟩ (.value fun _ => 0) p := fun _ ⟨_, _, _, h⟩ => h rfl

/-- Both diagonals of a chessboard of 2 x 2 pixels, and with eight neighbours only one component. -/
example : extract .repaired ⟨2, 2, 1, fun a => if a = 0 ∨ a = 3 then 1 else 0⟩ (.value fun _ => 0) false =
    some [([(0, 0)], ⟨0, 0, 1, 1⟩), ([(1, 1)], ⟨1, 1, 1, 1⟩)] := by rfl

example : extract .repaired ⟨2, 2, 1, fun a => if a = 0 ∨ a = 3 then 1 else 0⟩ (.value fun _ => 0) true =
    some [([(0, 0), (1, 1)], ⟨0, 0, 2, 2⟩)] := by rfl

end Verif.Props
