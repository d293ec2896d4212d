import Verif.Proof.OriginalTree
import Verif.Proof.RecogOrder
import Verif.Proof.LinearWords
import Verif.Spec.Mask

/-!
# Original detector: the image, its cells and their order
-/

namespace Verif.Original

open Function (update)
open Verif.Spec
open Verif.Linear (Dim Mask)
open Verif.Flood (idx)

/-! ### The bounding box -/

/-- The pixel lies in the rectangle. -/
def InBox (A : Area) (p : Nat × Nat) : Prop := A.left ≤ p.1 ∧ p.1 < A.left + A.w ∧ A.top ≤ p.2 ∧ p.2 < A.top + A.h

theorem mem_scan {w h : Nat} {p : Nat × Nat} : p ∈ scan w h ↔ p.1 < w ∧ p.2 < h := by
  unfold scan
  simp only [List.mem_flatMap, List.mem_range, List.mem_map]
  constructor
  · rintro ⟨y, hy, x, hx, rfl⟩; exact ⟨hx, hy⟩
  · rintro ⟨h1, h2⟩; exact ⟨p.2, h2, p.1, h1, rfl⟩

theorem bound_fold : ∀ (l : List (Nat × Nat)) (b : Bound),
    let r := l.foldl Bound.step b
    (∀ p ∈ l, r.rowMin ≤ p.2 ∧ p.2 ≤ r.rowMax ∧ r.colMin ≤ p.1 ∧ p.1 ≤ r.colMax) ∧
    (r.rowMin ≤ b.rowMin ∧ b.rowMax ≤ r.rowMax ∧ r.colMin ≤ b.colMin ∧ b.colMax ≤ r.colMax) ∧
    (∀ n, b.rowMax ≤ n → (∀ p ∈ l, p.2 ≤ n) → r.rowMax ≤ n) ∧ (∀ n, b.colMax ≤ n → (∀ p ∈ l, p.1 ≤ n) → r.colMax ≤ n) := by
  intro l
  induction l with
  | nil => intro b; exact ⟨by simp, ⟨le_rfl, le_rfl, le_rfl, le_rfl⟩, fun n h _ => h, fun n h _ => h⟩
  | cons a l ih =>
    intro b
    have h1 := ih (b.step a)
    simp only [List.foldl_cons] at h1 ⊢
    generalize l.foldl Bound.step (b.step a) = r at *
    obtain ⟨h1, ⟨h2, h3, h4, h5⟩, h6, h7⟩ := h1
    simp only [Bound.step] at h2 h3 h4 h5
    refine ⟨?_, ⟨by omega, by omega, by omega, by omega⟩, ?_, ?_⟩
    · intro p hp
      rcases List.mem_cons.1 hp with rfl | hp
      · exact ⟨by omega, by omega, by omega, by omega⟩
      · exact h1 p hp
    · intro n hn hl
      refine h6 n ?_ (fun p hp => hl p (by simp [hp]))
      have := hl a (by simp)
      simp only [Bound.step]; omega
    · intro n hn hl
      refine h7 n ?_ (fun p hp => hl p (by simp [hp]))
      have := hl a (by simp)
      simp only [Bound.step]; omega

theorem bounding_spec {W H : Nat} (hW : 1 ≤ W) (hH : 1 ≤ H) {k : Nat → Nat → Bool} {A : Area} (h : bounding W H k = some A) :
    (∀ p, p.1 < W → p.2 < H → k p.1 p.2 = true → InBox A p) ∧ A.left + A.w ≤ W ∧ A.top + A.h ≤ H := by
  unfold bounding at h
  dsimp only at h
  obtain ⟨h1, ⟨h2, h3, h4, h5⟩, h6, h7⟩ := bound_fold ((scan W H).filter fun p => k p.1 p.2) ⟨H, 0, W, 0⟩
  generalize ((scan W H).filter fun p => k p.1 p.2).foldl Bound.step ⟨H, 0, W, 0⟩ = r at *
  split at h
  case isFalse => cases h
  case isTrue hc =>
    cases h
    refine ⟨?_, ?_, ?_⟩
    · intro p hp1 hp2 hk
      have := h1 p (List.mem_filter.2 ⟨mem_scan.2 ⟨hp1, hp2⟩, hk⟩)
      exact ⟨this.2.2.1, by show p.1 < r.colMin + (r.colMax - r.colMin + 1); omega, this.1,
        by show p.2 < r.rowMin + (r.rowMax - r.rowMin + 1); omega⟩
    · have := h7 (W - 1) (by simp) (fun p hp => by have := mem_scan.1 (List.mem_filter.1 hp).1; omega)
      show r.colMin + (_ + 1) ≤ W
      omega
    · have := h6 (H - 1) (by simp) (fun p hp => by have := mem_scan.1 (List.mem_filter.1 hp).1; omega)
      show r.rowMin + (_ + 1) ≤ H
      omega

theorem bounding_some {W H : Nat} {k : Nat → Nat → Bool} {p : Nat × Nat} (h1 : p.1 < W) (h2 : p.2 < H)
    (hk : k p.1 p.2 = true) : ∃ A, bounding W H k = some A := by
  unfold bounding
  dsimp only
  have := (bound_fold ((scan W H).filter fun p => k p.1 p.2) ⟨H, 0, W, 0⟩).1 p (List.mem_filter.2 ⟨mem_scan.2 ⟨h1, h2⟩, hk⟩)
  rw [if_pos ⟨by omega, by omega⟩]
  exact ⟨_, rfl⟩

variable {W H : Nat} {mask : Mask} {src : Nat → Nat → Nat} {A : Area}

/-- The rectangle and the pixels kept in it are the pixels left in by the mask. -/
theorem active_spec (hW : 1 ≤ W) (hH : 1 ≤ H) (h : active W H mask src = some A) :
    (∀ p, p ∈ keptPx W H mask src ↔ InBox A p ∧ keep mask src p.1 p.2 = true) ∧ A.left + A.w ≤ W ∧ A.top + A.h ≤ H := by
  unfold active at h
  cases mask with
  | null =>
    cases h
    refine ⟨fun p => ?_, by simp, by simp⟩
    rw [mem_keptPx]; simp [LeftIn, InBox, keep]
  | rect l t w h' =>
    dsimp only at h
    split at h
    case isFalse => cases h
    case isTrue hc =>
      cases h
      refine ⟨fun p => ?_, hc.1, hc.2⟩
      rw [mem_keptPx]; simp only [LeftIn, InBox, keep, and_true]; omega
  | image m =>
    obtain ⟨h1, h2, h3⟩ := bounding_spec hW hH h
    refine ⟨fun p => ?_, h2, h3⟩
    rw [mem_keptPx]
    simp only [LeftIn, keep, decide_eq_true_eq] at h1 ⊢
    constructor
    · rintro ⟨⟨a, b⟩, c⟩; exact ⟨h1 p a b c, c⟩
    · rintro ⟨⟨_, a, _, b⟩, c⟩; exact ⟨⟨by omega, by omega⟩, c⟩
  | value v =>
    obtain ⟨h1, h2, h3⟩ := bounding_spec hW hH h
    refine ⟨fun p => ?_, h2, h3⟩
    rw [mem_keptPx]
    simp only [LeftIn, keep, decide_eq_true_eq] at h1 ⊢
    constructor
    · rintro ⟨⟨a, b⟩, c⟩; exact ⟨h1 p a b c, c⟩
    · rintro ⟨⟨_, a, _, b⟩, c⟩; exact ⟨⟨by omega, by omega⟩, c⟩

/-- A mask rectangle lies in the image, and a mask image or value leaves some pixel in. -/
def MaskOK (W H : Nat) (mask : Mask) (src : Nat → Nat → Nat) : Prop :=
  match mask with
  | .null => True
  | .rect l t w h => l + w ≤ W ∧ t + h ≤ H
  | .image _ => (keptPx W H mask src).Nonempty
  | .value _ => (keptPx W H mask src).Nonempty

theorem active_some (h : MaskOK W H mask src) : ∃ A, active W H mask src = some A := by
  unfold active
  cases mask with
  | null => exact ⟨_, rfl⟩
  | rect l t w h' => exact ⟨_, if_pos h⟩
  | image m =>
    obtain ⟨p, hp⟩ := h
    obtain ⟨⟨h1, h2⟩, h3⟩ := mem_keptPx.1 hp
    exact bounding_some (p := p) h1 h2 (by simpa [LeftIn, keep] using h3)
  | value v =>
    obtain ⟨p, hp⟩ := h
    obtain ⟨⟨h1, h2⟩, h3⟩ := mem_keptPx.1 hp
    exact bounding_some (p := p) h1 h2 (by simpa [LeftIn, keep] using h3)

/-! ### Cells -/

/-- The cell of a pixel. -/
def cellOf (A : Area) (p : Nat × Nat) : Nat := idx A.w (p.1 - A.left) (p.2 - A.top)

theorem cellOf_inj {p q : Nat × Nat} (hp : InBox A p) (hq : InBox A q) (h : cellOf A p = cellOf A q) : p = q := by
  have := Flood.idx_inj (w := A.w) (by have := hp.2.1; omega) (by have := hq.2.1; omega) h
  obtain ⟨a, b, c, d⟩ := hp
  obtain ⟨a', b', c', d'⟩ := hq
  exact Prod.ext (by omega) (by omega)

theorem cell_mod {p : Nat × Nat} (hp : InBox A p) : cellOf A p % (A.w + 2) = p.1 - A.left + 1 :=
  Flood.idx_mod (by have := hp.1; have := hp.2.1; omega)

theorem cell_div {p : Nat × Nat} (hp : InBox A p) : cellOf A p / (A.w + 2) = p.2 - A.top + 1 :=
  Flood.idx_div (by have := hp.1; have := hp.2.1; omega)

/-- The points of the cells carry the coordinates in the image. -/
theorem fresh_pos {p : Nat × Nat} (hp : InBox A p) : (freshPts A (cellOf A p)).x = p.1 ∧ (freshPts A (cellOf A p)).y = p.2 := by
  obtain ⟨a, b, c, d⟩ := id hp
  constructor
  · show ((cellOf A p % (A.w + 2) : Nat) : Int) + A.left - 1 = _
    rw [cell_mod hp]; omega
  · show ((cellOf A p / (A.w + 2) : Nat) : Int) + A.top - 1 = _
    rw [cell_div hp]; omega

theorem temp_of {k : Nat → Nat → Bool} {p : Nat × Nat} (hp : InBox A p) :
    tempImage A k src (cellOf A p) = if k p.1 p.2 then (src p.1 p.2 : Int) else -0x8000 := by
  obtain ⟨a, b, c, d⟩ := id hp
  unfold tempImage
  dsimp only
  rw [cell_mod hp, cell_div hp, if_pos ⟨by omega, by omega, by omega, by omega⟩,
    show A.left + (p.1 - A.left + 1) - 1 = p.1 by omega, show A.top + (p.2 - A.top + 1) - 1 = p.2 by omega]

theorem temp_inn {k : Nat → Nat → Bool} {c : Nat} :
    0 ≤ tempImage A k src c ↔ ∃ p, InBox A p ∧ k p.1 p.2 = true ∧ cellOf A p = c := by
  constructor
  · intro h
    unfold tempImage at h
    dsimp only at h
    split at h
    case isFalse => omega
    case isTrue hc =>
      split at h
      case isFalse => omega
      case isTrue hk =>
        refine ⟨(A.left + c % (A.w + 2) - 1, A.top + c / (A.w + 2) - 1), ⟨?_, ?_, ?_, ?_⟩, hk, ?_⟩
        · show A.left ≤ A.left + _ - 1; omega
        · show A.left + _ - 1 < _; omega
        · show A.top ≤ A.top + _ - 1; omega
        · show A.top + _ - 1 < _; omega
        · show (A.top + c / (A.w + 2) - 1 - A.top + 1) * (A.w + 2) + (A.left + c % (A.w + 2) - 1 - A.left + 1) = c
          have := Nat.div_add_mod c (A.w + 2)
          rw [show A.top + c / (A.w + 2) - 1 - A.top + 1 = c / (A.w + 2) by omega,
            show A.left + c % (A.w + 2) - 1 - A.left + 1 = c % (A.w + 2) by omega, Nat.mul_comm]
          exact this
  · rintro ⟨p, hp, hk, rfl⟩
    rw [temp_of hp, if_pos hk]; omega

theorem mem_inner {c : Nat} : c ∈ innerCells A ↔ ∃ p, InBox A p ∧ cellOf A p = c := by
  unfold innerCells
  rw [List.mem_map]
  constructor
  · rintro ⟨p, hp, rfl⟩
    have := mem_scan.1 hp
    refine ⟨(p.1 + A.left, p.2 + A.top), ⟨?_, ?_, ?_, ?_⟩, ?_⟩
    · show A.left ≤ _ + _; omega
    · show _ + _ < _; omega
    · show A.top ≤ _ + _; omega
    · show _ + _ < _; omega
    · show idx A.w (p.1 + A.left - A.left) (p.2 + A.top - A.top) = _
      rw [Nat.add_sub_cancel, Nat.add_sub_cancel]; rfl
  · rintro ⟨p, ⟨a, b, c', d⟩, rfl⟩
    exact ⟨(p.1 - A.left, p.2 - A.top), mem_scan.2 ⟨by show p.1 - _ < _; omega, by show p.2 - _ < _; omega⟩, rfl⟩

theorem scan_nodup (w h : Nat) : (scan w h).Nodup := by
  unfold scan
  rw [List.nodup_flatMap]
  refine ⟨fun y _ => (List.nodup_range).map fun a b e => by simpa using e, ?_⟩
  refine (List.nodup_range).imp ?_
  intro a b hab x hx hy
  rw [List.mem_map] at hx hy
  obtain ⟨x1, _, rfl⟩ := hx
  obtain ⟨x2, _, e⟩ := hy
  simp at e; omega

theorem inner_nodup (A : Area) : (innerCells A).Nodup := by
  unfold innerCells
  refine (scan_nodup A.w A.h).map_on ?_
  intro p hp q hq e
  have h1 := mem_scan.1 hp
  have h2 := mem_scan.1 hq
  have := Flood.idx_inj (w := A.w) (by omega) (by omega) (show idx A.w p.1 p.2 = idx A.w q.1 q.2 from e)
  exact Prod.ext this.1 this.2

/-! ### Neighbours -/

theorem adj_box (eight : Bool) (hl : A.left + A.w ≤ W) (ht : A.top + A.h ≤ H) {p q : Nat × Nat} (hp : InBox A p) (hq : InBox A q) :
    V1.AdjV1 eight A.w A.h (p.1 - A.left, p.2 - A.top) (q.1 - A.left, q.2 - A.top) ↔ V1.AdjV1 eight W H p q := by
  obtain ⟨a, b, c, d⟩ := hp
  obtain ⟨a', b', c', d'⟩ := hq
  cases eight with
  | false =>
    simp only [V1.AdjV1, Adj4, mem_pixels, Bool.false_eq_true, if_false]
    omega
  | true =>
    simp only [V1.AdjV1, Adj8, mem_pixels, if_true, ne_eq, Prod.ext_iff]
    omega

theorem dirs_length (D : Dim) : D.dirs.length = Linear.nds D.eight := by
  unfold Dim.dirs Linear.nds; cases D.eight <;> rfl

theorem box_mem (eight : Bool) {p : Nat × Nat} (hp : InBox A p) :
    cellOf A p ∈ (Linear.patchL ⟨A.w, A.h, eight⟩ fun _ _ => 0).px := by
  obtain ⟨a, b, c, d⟩ := hp
  exact Linear.mem_pxL.2 ⟨p.1 - A.left, p.2 - A.top, by show _ < A.w; omega, by show _ < A.h; omega, rfl⟩

theorem nbr_iff (eight : Bool) (hl : A.left + A.w ≤ W) (ht : A.top + A.h ≤ H) {p q : Nat × Nat} (hp : InBox A p) (hq : InBox A q) :
    (∃ k < (Dim.dirs ⟨A.w, A.h, eight⟩).length, Dim.nbr ⟨A.w, A.h, eight⟩ (cellOf A p) k = some (cellOf A q)) ↔
    V1.AdjV1 eight W H p q := by
  rw [← adj_box eight hl ht hp hq]
  have hP : (p.1 - A.left, p.2 - A.top) ∈ pixels A.w A.h := by
    obtain ⟨a, b, c, d⟩ := hp; rw [mem_pixels]; constructor <;> simp only <;> omega
  have hQ : (q.1 - A.left, q.2 - A.top) ∈ pixels A.w A.h := by
    obtain ⟨a, b, c, d⟩ := hq; rw [mem_pixels]; constructor <;> simp only <;> omega
  rw [← V1.adjV1_iff (img := fun _ _ => 0) (gm := 0) hP hQ, dirs_length]
  have h1 := box_mem eight hp
  have h2 := box_mem eight hq
  constructor
  · rintro ⟨k, hk, e⟩
    rw [Linear.nbr_eq h1 hk] at e
    exact ⟨h1, h2, k + 1, by omega, hk, Option.some.inj e⟩
  · rintro ⟨_, _, k, hk1, hk2, e⟩
    obtain ⟨j, rfl⟩ : ∃ j, k = j + 1 := ⟨k - 1, by omega⟩
    refine ⟨j, hk2, ?_⟩
    rw [Linear.nbr_eq h1 (show j < Linear.nds eight from hk2)]
    exact congrArg some e

theorem nbr_some (eight : Bool) {p : Nat × Nat} (hp : InBox A p) {k : Nat} (hk : k < (Dim.dirs ⟨A.w, A.h, eight⟩).length) :
    ∃ o, Dim.nbr ⟨A.w, A.h, eight⟩ (cellOf A p) k = some o := by
  rw [dirs_length] at hk
  exact ⟨_, Linear.nbr_eq (box_mem eight hp) hk⟩

/-! ### The order of the cells -/

/-- The cells as seen by the counting sort of recognition. -/
def asNodes (img : Nat → Int) : Recog.RForest Nat := fun c =>
  { gray := (img c).toNat, parent := none, flag := if 0 ≤ img c then .unknown else .invalid, size := 0, var := 0, counted := false }

theorem place_eq (img : Nat → Int) (area : Nat) : place img area = Recog.place (asNodes img) area := by
  funext o c
  unfold place Recog.place asNodes
  by_cases h : 0 ≤ img c <;> simp [h]

theorem unk_nodes (img : Nat → Int) (g c : Nat) : Recog.unk (asNodes img) g c = decide (0 ≤ img c ∧ (img c).toNat = g) := by
  unfold Recog.unk asNodes
  by_cases h : 0 ≤ img c <;> simp [h]

theorem counts_eq (A : Area) (img : Nat → Int) (g : Nat) :
    counts A img g = ((innerCells A).countP (Recog.unk (asNodes img) g) : Int) := by
  have : ∀ (l : List Nat) (f : Nat → Int),
      l.foldl (fun f c => if 0 ≤ img c then update f (img c).toNat (f (img c).toNat + 1) else f) f g =
      f g + (l.countP (Recog.unk (asNodes img) g) : Int) := by
    intro l
    induction l with
    | nil => intro f; simp
    | cons c l ih =>
      intro f
      rw [List.foldl_cons, ih, List.countP_cons, unk_nodes]
      by_cases h : 0 ≤ img c
      · rw [if_pos h]
        by_cases e : (img c).toNat = g
        · subst e; simp [h]; omega
        · rw [Function.update_of_ne (Ne.symm e)]; simp [e]
      · rw [if_neg h]; simp [h]
  unfold counts
  rw [this]; simp

/-- The counting sort delivers the pixels taken over, in the order of their values. -/
theorem sortPts_spec (A : Area) (img : Nat → Int) (hlt : ∀ c ∈ innerCells A, img c < 256) :
    ∃ l, sortPts A img (areaOf A img) = some l ∧ l.Nodup ∧ (∀ c, c ∈ l ↔ c ∈ innerCells A ∧ 0 ≤ img c) ∧
      l.Pairwise (fun a b => (img a).toNat ≤ (img b).toNat) ∧ l.length = areaOf A img := by
  have hcand : ∀ c, Recog.cand (asNodes img) c = decide (0 ≤ img c) := by
    intro c; unfold Recog.cand asNodes; by_cases h : 0 ≤ img c <;> simp [h]
  have hgr : ∀ r ∈ innerCells A, ((asNodes img) r).flag = .unknown → ((asNodes img) r).gray < 256 := by
    intro c hc _
    have := hlt c hc
    show (img c).toNat < 256
    omega
  have harea : areaOf A img = (innerCells A).countP (Recog.cand (asNodes img)) := by
    unfold areaOf
    rw [← List.countP_eq_length_filter]
    exact List.countP_congr fun c _ => by rw [hcand]
  have hlen := Recog.byGray_length hgr
  have h := Recog.grayOrder_spec (s := ⟨asNodes img, counts A img, 0⟩) (order := innerCells A) (msize := areaOf A img)
    (counts_eq A img) hgr (by rw [harea])
  refine ⟨Recog.byGray (asNodes img) (innerCells A) 256, ?_, Recog.byGray_nodup (inner_nodup A) 256, ?_,
    Recog.byGray_sorted (R := asNodes img) 256, by rw [hlen, harea]⟩
  · unfold sortPts
    rw [place_eq]
    unfold Recog.grayOrder at h
    simp only at h
    rw [Recog.startIndex_eq (counts_eq A img) 256, hlen, ← harea, Int.toNat_natCast] at h
    revert h
    cases List.foldlM (Recog.place (asNodes img) (areaOf A img)) _ (innerCells A) <;> exact id
  · intro c
    rw [Recog.mem_byGray]
    constructor
    · rintro ⟨h1, h2, -⟩
      refine ⟨h1, ?_⟩
      by_contra hn
      have h2 : (if 0 ≤ img c then Recog.Flag.unknown else .invalid) = .unknown := h2
      rw [if_neg hn] at h2; cases h2
    · rintro ⟨h1, h2⟩
      have h3 : ((asNodes img) c).flag = .unknown := if_pos h2
      exact ⟨h1, h3, hgr c h1 h3⟩

end Verif.Original
