import Verif.Proof.OriginalPass
import Verif.Proof.OriginalRecog

/-!
# Original detector: recognition after flooding, and extraction
-/

namespace Verif.Original

open Function (update)
open Verif.Recog
open Verif.Spec
open Verif.Connect (forestTree chase)
open Verif.Linear (Dim Mask)

variable {W H : Nat} {eight : Bool} {K : Finset (Nat × Nat)} {val : Nat × Nat → Nat} {A : Area} {s : St}
  {Ls : Nat → List Nat} {cfg : Cfg} {mask : Mask} {src : Nat → Nat → Nat}

/-- The region tree of the pixels. -/
def pxTree (A : Area) (s : St) : RegionTree (Nat × Nat) Nat :=
  ⟨(cellTree s).isReg, fun p => (cellTree s).lab (cellOf A p), (cellTree s).gray, (cellTree s).parent, (cellTree s).size⟩

/-- What recognition works with. -/
abbrev recTree (A : Area) (s : St) : Recog.Tree Nat := treeOf (pxTree A s) (fun r => r < s.nreg) s.nreg

theorem pxTree_reg {r : Nat} : (pxTree A s).isReg r ↔ r < s.nreg ∧ (s.regs r).merged = false := by
  show (r < s.nreg ∧ (forest s r).merged = false) ↔ _
  refine and_congr_right fun hr => ?_
  rw [forest_of hr]

theorem pxTree_gray {r : Nat} (hr : r < s.nreg) : (pxTree A s).gray r = (s.regs r).gray := by
  show (forest s r).gray = _
  rw [forest_of hr]

theorem pxTree_size {r : Nat} (hr : r < s.nreg) : (pxTree A s).size r = (s.regs r).size := by
  show (forest s r).size = _
  rw [forest_of hr]

theorem Flooded.ok (h : Flooded W H eight K val A s Ls) (hv : ∀ p ∈ K, val p < 256) : (pxTree A s).Ok := h.tree.ok hv

theorem Flooded.par_lt (h : Flooded W H eight K val A s Ls) : ∀ r < s.nreg, ∀ p, (s.regs r).parent = some p → p < s.nreg := by
  obtain ⟨E, g, cur, hi, -⟩ := h.inv
  exact fun r hr p hp => (hi.par_lt r hr p hp).2

theorem unmerged_chase (hp : ∀ r < s.nreg, ∀ p, (s.regs r).parent = some p → p < s.nreg) : ∀ (k : Nat) (o : Option Nat),
    (∀ p, o = some p → p < s.nreg) →
    unmerged (fun r => (s.regs r).merged) (toR s.nreg s.regs) k o = chase (forest s) k o := by
  intro k
  induction k with
  | zero =>
    intro o ho
    cases o with
    | none => simp [unmerged, chase]
    | some p =>
      unfold unmerged chase
      rw [forest_of (ho p rfl)]
  | succ k ih =>
    intro o ho
    cases o with
    | none => simp [unmerged, chase]
    | some p =>
      have hlt := ho p rfl
      unfold unmerged chase
      rw [forest_of hlt]
      have e : (toR s.nreg s.regs p).parent = (s.regs p).parent := by unfold toR; rw [if_pos hlt]
      rw [e]
      dsimp only
      rw [ih _ (hp p hlt)]

theorem Flooded.raw (h : Flooded W H eight K val A s Ls) :
    Raw (recTree A s) (fun r => (s.regs r).merged) s.nreg (toR s.nreg s.regs) := by
  obtain ⟨E, g, cur, hi, -, hv, -⟩ := h.inv
  have hstr := forest_str hi hv
  have hR : ∀ r < s.nreg, toR s.nreg s.regs r =
      { gray := (s.regs r).gray, parent := (s.regs r).parent, flag := (s.regs r).flag, size := (s.regs r).size,
        var := (s.regs r).var, counted := false } := fun r hr => if_pos hr
  refine ⟨fun r => pxTree_reg (A := A), ?_, ?_, ?_, ?_, ?_⟩
  · intro r
    show _ = (forest s r).gray
    unfold toR forest
    split <;> rfl
  · intro r
    show _ = (forest s r).size
    unfold toR forest
    split <;> rfl
  · intro r hr
    have hn := ((pxTree_reg (A := A)).1 hr).1
    rw [hR r hn]
    dsimp only
    rw [unmerged_chase h.par_lt _ _ (h.par_lt r hn)]
    obtain ⟨sp, h1, -⟩ := hstr.chase_parent (le_refl s.nreg) hn
    rw [forest_of hn] at h1
    show _ = some ((chase (forest s) s.nreg (forest s r).parent).getD none)
    rw [forest_of hn]
    dsimp only at h1 ⊢
    rw [h1]; rfl
  · intro r hr; rw [hR r hr]; exact (h.fresh r hr).1
  · intro r hr; rw [hR r hr]; exact (h.fresh r hr).2

/-! ### Which regions are admitted -/

theorem admitted_iff {T : RegionTree (Nat × Nat) Nat} {isReg : Nat → Prop} {m : Nat} (h : T.Ok)
    (hreg : ∀ r, T.isReg r → isReg r) (h32 : Rounding cfg.r32) (hst : -1 ≤ cfg.stable) {r : Nat} :
    (T.isReg r ∧ ¬ badO (treeOf T isReg m) cfg r) ↔ Admitted T (limits cfg) r := by
  unfold badO
  constructor
  · rintro ⟨hr, hb⟩
    rw [not_or, not_not] at hb
    obtain ⟨⟨b1, b2, b3⟩, b5⟩ := hb
    refine ⟨hr, fun hd v hv => ?_, b2, b3, fun hd h0 hs => b5 ⟨hd, (suppressed_iff h hreg h32 hr).1 ⟨h0, hs⟩⟩⟩
    rw [stability_some (m := m) h hreg h32 hr] at hv
    rw [hv.2]; exact b1 hd
  · intro hs
    refine ⟨hs.reg, ?_⟩
    rw [not_or, not_not]
    refine ⟨⟨fun hd => ?_, hs.min, hs.max⟩, fun hh => ?_⟩
    · obtain ⟨u, hu, hh⟩ := vval_stability (m := m) h hreg h32 hs.reg
      rcases hh with ⟨_, e⟩ | ⟨rfl, e⟩
      · rw [e]; exact hst
      · exact hs.stable hd _ hu
    · have := (suppressed_iff (m := m) h hreg h32 hs.reg).2 hh.2
      exact hs.nms hh.1 this.1 this.2

/-! ### The points of a region -/

theorem chain_any {E : Env} {g cur : Nat} (h : Inv E s Ls g cur []) : ∀ (k r : Nat), s.nreg - r ≤ k → r < s.nreg →
    (Ls r).IsChain fun a b => (s.pts a).next = some b := by
  intro k
  induction k with
  | zero => intro r h1 h2; omega
  | succ k ih =>
    intro r h1 h2
    cases hp : par s r with
    | none => exact h.chain r h2 hp
    | some p =>
      have h3 := h.par_lt r h2 p hp
      exact (ih p (by omega) h3.2).infix (h.sub r h2 p hp)

theorem copyPts_spec (pts : Nat → Point) (cells : Nat) : ∀ (l : List Nat) (b : Rectangle.Rect),
    (l.IsChain fun a b => (pts a).next = some b) → (∀ c ∈ l, c < cells) → ∀ (o : Option Nat), (l ≠ [] → o = l.head?) →
    copyPts pts cells l.length o b = some (l.map fun c => ((pts c).x, (pts c).y),
      (l.map fun c => ((pts c).x, (pts c).y)).foldl Rectangle.Rect.appendPoint b) := by
  intro l
  induction l with
  | nil => intro b _ _ o _; rfl
  | cons c l ih =>
    intro b hc hl o ho
    obtain rfl := ho (by simp)
    rw [List.length_cons, List.head?_cons, copyPts, if_pos (hl c (by simp))]
    rw [ih _ hc.tail (fun x hx => hl x (by simp [hx])) (pts c).next (by
      intro hne
      cases l with
      | nil => exact absurd rfl hne
      | cons d l =>
        rw [List.isChain_cons_cons] at hc
        exact hc.1)]
    rfl

/-- A pixel as extraction stores it. -/
def toInt (p : Nat × Nat) : Int × Int := (p.1, p.2)

/-- The record of a region. -/
structure RecordedO (K : Finset (Nat × Nat)) (T : RegionTree (Nat × Nat) Nat) (gm : Nat) (r : Nat) (rec : RecO) : Prop where
  reg : T.isReg r
  gray : rec.gray = if gm = 0 then (T.gray r : Int) else 255 - T.gray r
  size : rec.size = T.size r
  points : ∃ pts : List (Nat × Nat), rec.points = pts.map toInt ∧ pts.length = rec.size ∧ pts.Nodup ∧
    (∀ q, q ∈ pts ↔ q ∈ K ∧ T.Under r q) ∧ rec.rect = (pts.map toInt).foldl Rectangle.Rect.appendPoint ⟨0, 0, 0, 0⟩

theorem cell_lt {p : Nat × Nat} (h : InBox A p) (e : Bool) : cellOf A p < (⟨A.w, A.h, e⟩ : Dim).cells := by
  obtain ⟨a, b, c, d⟩ := h
  show (p.2 - A.top + 1) * (A.w + 2) + (p.1 - A.left + 1) < (A.h + 2) * (A.w + 2)
  have h1 : (p.2 - A.top + 1 + 1) * (A.w + 2) ≤ (A.h + 2) * (A.w + 2) := Nat.mul_le_mul_right _ (by omega)
  have h2 : (p.2 - A.top + 1 + 1) * (A.w + 2) = (p.2 - A.top + 1) * (A.w + 2) + (A.w + 2) := by ring
  omega

/-- The record of an unmerged region; `s'` is the detector after recognition. -/
theorem Flooded.record (h : Flooded W H eight K val A s Ls) (hbox : ∀ p ∈ K, InBox A p)
    {s' : St} (hpts : s'.pts = s.pts) (hD' : s'.D = s.D) {r : Nat} (hr : (pxTree A s).isReg r)
    (hreg : (s'.regs r).gray = (s.regs r).gray ∧ (s'.regs r).size = (s.regs r).size ∧ (s'.regs r).head = (s.regs r).head)
    (gm : Nat) : ∃ rec, recO gm s' r = some rec ∧ RecordedO K (pxTree A s) gm r rec := by
  obtain ⟨E, g, cur, hi, hE, hv, hseen⟩ := h.inv
  obtain ⟨hn, hm⟩ := pxTree_reg.1 hr
  have hc := chain_any hi s.nreg r (Nat.sub_le _ _) hn
  have hpx := h.cells r hn
  have hlt : ∀ c ∈ Ls r, c < s.D.cells := by
    intro c hc
    obtain ⟨p, hp, rfl, -, -⟩ := hpx c hc
    rw [h.D]; exact cell_lt (hbox p hp) eight
  have hcopy := copyPts_spec s.pts s.D.cells (Ls r) ⟨0, 0, 0, 0⟩ hc hlt (some (s.regs r).head) (fun _ => (hi.head r hn).symm)
  rw [← hi.size r hn] at hcopy
  unfold recO
  dsimp only
  rw [hreg.2.1, hreg.2.2, hpts, hD', hcopy]
  refine ⟨_, rfl, hr, ?_, ?_, (Ls r).map fun c => ((s.pts c).x.toNat, (s.pts c).y.toNat), ?_, ?_, ?_, ?_, ?_⟩
  · dsimp only; rw [hreg.1, pxTree_gray hn]
  · dsimp only; rw [pxTree_size hn]
  all_goals try
    have hmap : ((Ls r).map fun c => ((s.pts c).x.toNat, (s.pts c).y.toNat)).map toInt =
        (Ls r).map fun c => ((s.pts c).x, (s.pts c).y) := by
      rw [List.map_map]
      refine List.map_congr_left fun c hc => ?_
      obtain ⟨p, -, -, h1, h2⟩ := hpx c hc
      simp [toInt, h1, h2]
  · exact hmap.symm
  · dsimp only; rw [List.length_map, hi.size r hn]
  · refine List.Nodup.map_on ?_ (hi.nodup r hn)
    intro a ha b hb e
    obtain ⟨p, hp, rfl, h1, h2⟩ := hpx a ha
    obtain ⟨q, hq, rfl, h3, h4⟩ := hpx b hb
    rw [h1, h2, h3, h4] at e
    simp only [Int.toNat_natCast, Prod.mk.injEq] at e
    rw [Prod.ext e.1 e.2]
  · intro q
    have hund : ∀ q ∈ K, ((pxTree A s).Under r q ↔ cellOf A q ∈ Ls r) := by
      intro q hq
      have hinn : cellOf A q ∈ s.order.toFinset := List.mem_toFinset.2 (h.inn q hq)
      exact under_iff hi hseen hE.mem hv hn hm hinn
    rw [List.mem_map]
    constructor
    · rintro ⟨c, hc, rfl⟩
      obtain ⟨p, hp, rfl, h1, h2⟩ := hpx c hc
      rw [h1, h2]
      simp only [Int.toNat_natCast]
      exact ⟨hp, (hund p hp).2 hc⟩
    · rintro ⟨hq, hu⟩
      have hc := (hund q hq).1 hu
      obtain ⟨p, hp, e, h1, h2⟩ := hpx _ hc
      have := cellOf_inj (hbox p hp) (hbox q hq) e
      subst this
      exact ⟨_, hc, by rw [h1, h2]; simp⟩
  · dsimp only; rw [hmap]

end Verif.Original
