import Verif.Props.RecognizeV1
import Verif.Props.Rect
import Verif.Props.Whole
import Verif.Proof.OriginalExtract

/-!
# Properties C79–C82: the original detector
-/

namespace Verif.Props

open Verif.Spec Verif.Recog
open Verif.Linear (Mask)
open Verif.Original (Det RecO Area Flooded RecordedO InBox MaskOK passVal pxTree recTree badO Ready)

variable {W H : Nat} {eight : Bool} {K : Finset (Nat × Nat)} {val : Nat × Nat → Nat} {A : Area} {s : Original.St}
  {Ls : Nat → List Nat} {cfg : Cfg} {mask : Mask} {src : Nat → Nat → Nat} {gm : Nat} {fm fb : Bool} {d : Det}

/-- What a direction delivers: `recs` are the records of the regions `out.reported` of the component tree of the pixels
`K`, in this order, and these regions are admitted. -/
structure DeliveredO (cfg : Cfg) (W H : Nat) (eight : Bool) (K : Finset (Nat × Nat)) (val : Nat × Nat → Nat) (gm : Nat)
    (T : RegionTree (Nat × Nat) Nat) (out : Recognized Nat) (recs : List RecO) : Prop where
  tree : IsComponentTree (AdjIn eight W H K) val K T
  recs : List.Forall₂ (RecordedO K T gm) out.reported recs
  nodup : out.reported.Nodup
  within : ∀ r ∈ out.reported, cfg.minPoint ≤ (T.size r : Int) ∧ (T.size r : Int) ≤ cfg.maxPoint
  admitted : Rounding cfg.r32 → -1 ≤ cfg.stable → ∀ r ∈ out.reported, Admitted T (limits cfg) r
  groups : Rounding cfg.r32 → Rounding cfg.r64 → -1 ≤ cfg.stable → cfg.dup < cfg.r64 (3 / 5) →
    ∃ arr gs, Result T cfg (Admitted T (limits cfg)) out arr gs

theorem mapM_forall₂ {α β : Type} {f : α → Option β} {P : α → β → Prop} : ∀ (l : List α),
    (∀ a ∈ l, ∃ b, f a = some b ∧ P a b) → ∃ bs, l.mapM f = some bs ∧ List.Forall₂ P l bs := by
  intro l
  induction l with
  | nil => intro _; exact ⟨[], rfl, .nil⟩
  | cons a l ih =>
    intro h
    obtain ⟨b, e1, h1⟩ := h a (by simp)
    obtain ⟨bs, e2, h2⟩ := ih fun x hx => h x (by simp [hx])
    exact ⟨b :: bs, by rw [List.mapM_cons, e1, e2]; rfl, .cons h1 h2⟩

/-- Recognition and extraction after a pass. -/
theorem deliver (h : Flooded W H eight K val A s Ls) (hbox : ∀ p ∈ K, InBox A p) (hv : ∀ p ∈ K, val p < 256) (cfg : Cfg)
    (gm : Nat) : ∃ regs inv out recs, Original.recognize cfg s = some ({ s with regs := regs }, inv) ∧
      Original.extractO gm { s with regs := regs } inv = some recs ∧
      DeliveredO cfg W H eight K val gm (pxTree A s) out recs := by
  have hok := h.ok hv
  have hreg : ∀ r, (pxTree A s).isReg r → r < s.nreg := fun r hr => (Original.pxTree_reg.1 hr).1
  have hT : (recTree A s).Ok := treeOf_ok hok hreg
  obtain ⟨t, e1, h4, h5⟩ := Original.recognizeO_spec (cfg := cfg) h.raw hT fun r => (s.regs r).short
  obtain ⟨regs, hregs⟩ : ∃ regs : Nat → Original.Reg, regs = fun r =>
      if r < s.nreg then
        { s.regs r with parent := (t.R r).parent, flag := (t.R r).flag, var := (t.R r).var, short := t.short r }
      else s.regs r := ⟨_, rfl⟩
  have erec : Original.recognize cfg s = some ({ s with regs := regs }, t.invalid) := by
    unfold Original.recognize
    rw [if_pos h.par_lt, e1, hregs]
  have hflag : ∀ r < s.nreg, (regs r).flag = (t.R r).flag := by
    intro r hr; rw [hregs]; simp only [if_pos hr]
  have hsame : ∀ r < s.nreg, (regs r).gray = (s.regs r).gray ∧ (regs r).size = (s.regs r).size ∧
      (regs r).head = (s.regs r).head := by
    intro r hr; rw [hregs]; simp only [if_pos hr]; exact ⟨trivial, trivial, trivial⟩
  let valid : List Nat := (List.range s.nreg).filter fun r => decide ((regs r).flag = .valid)
  have hval : ∀ r, r ∈ valid ↔ r < s.nreg ∧ (t.R r).flag = .valid := by
    intro r
    rw [List.mem_filter, List.mem_range, decide_eq_true_eq]
    exact and_congr_right fun hr => by rw [hflag r hr]
  have hgood : ∀ r ∈ valid, (pxTree A s).isReg r ∧ ¬ badO (recTree A s) cfg r := by
    intro r hr
    obtain ⟨k1, k2⟩ := (hval r).1 hr
    exact h4.good r k1 (by rw [k2]; decide)
  obtain ⟨recs, e2, h6⟩ := mapM_forall₂ (f := Original.recO gm { s with regs := regs })
    (P := RecordedO K (pxTree A s) gm) valid fun r hr =>
      h.record hbox (s' := { s with regs := regs }) rfl rfl (hgood r hr).1 (hsame r (hreg r (hgood r hr).1)) gm
  have hcount : t.invalid + valid.length = s.nreg := by
    have k1 := List.length_eq_countP_add_countP (fun r => decide ((regs r).flag = .valid)) (l := List.range s.nreg)
    rw [List.length_range] at k1
    rw [h4.invalid, ← List.countP_eq_length_filter, Nat.add_comm]
    refine Eq.trans ?_ k1.symm
    congr 1
    refine List.countP_congr fun r hr => ?_
    have hr := List.mem_range.1 hr
    simp only [Original.inval, hflag r hr, decide_eq_true_eq, decide_not, Bool.not_eq_eq_eq_not, Bool.not_true,
      decide_eq_false_iff_not]
    constructor
    · intro e; rw [e]; decide
    · intro e
      rcases h4.flag r hr with k | k | k
      · exact absurd k (h4.done r hr)
      · exact absurd k e
      · exact k
  have hlen : recs.length = valid.length := h6.length_eq.symm
  have eext : Original.extractO gm { s with regs := regs } t.invalid = some recs := by
    unfold Original.extractO
    dsimp only
    change (match valid.mapM (Original.recO gm { s with regs := regs }) with
      | none => none
      | some l => _) = _
    rw [e2]
    dsimp only
    rw [if_pos ⟨by omega, by omega⟩, show s.nreg - t.invalid - recs.length = 0 by omega, List.replicate_zero,
      List.append_nil]
  have hnd : valid.Nodup := List.nodup_range.filter _
  refine ⟨regs, t.invalid, ⟨t.R, valid, (valid.map (pxTree A s).size).sum⟩, recs, erec, eext, h.tree, h6, hnd, ?_, ?_, ?_⟩
  · intro r hr
    have := (not_or.1 (hgood r hr).2).1
    rw [not_not] at this
    exact this.2
  · intro h32 hst r hr
    exact (Original.admitted_iff hok hreg h32 hst).1 (hgood r hr)
  · intro h32 h64 hst hd
    obtain ⟨arr, gs, g1, g2, g3, -, g5, g6⟩ := h5 h64 hd (apart_of h.tree) (fun i j hij hj => by
      show (pxTree A s).gray i ≤ (pxTree A s).gray j
      rw [Original.pxTree_gray hj, Original.pxTree_gray (lt_of_le_of_lt hij hj)]
      exact h.sorted i j hij hj)
    have hk : ∀ r, r ∈ valid ↔ r ∈ kept gs := fun r => (hval r).trans (g6 r)
    refine ⟨arr, gs, result_gen (out := ⟨t.R, valid, _⟩) hT (fun r hr => ((g1 r).1 hr).1)
      (fun r => (g1 r).trans (Original.admitted_iff hok hreg h32 hst)) g2 g3 g5 hk hnd ?_ ?_ rfl⟩
    · have := ((List.perm_ext_iff_of_nodup hnd (g5.kept_nodup g2)).2 hk).length_eq
      rwa [kept, List.length_map] at this
    · intro r hr
      have hr := hreg r hr
      dsimp only
      by_cases hkr : r ∈ kept gs
      · rw [if_pos hkr]; exact ((g6 r).2 hkr).2
      · rw [if_neg hkr]
        rcases h4.flag r hr with k | k | k
        · exact absurd k (h4.done r hr)
        · exact absurd ((g6 r).1 ⟨hr, k⟩) hkr
        · exact k

theorem passVal_lt (hsrc : ∀ x y, x < W → y < H → src x y < 256) (gm : Nat) : ∀ p ∈ keptPx W H mask src, passVal gm src p < 256 := by
  intro p hp
  have hp := mem_keptPx.1 hp
  have := hsrc p.1 p.2 hp.1.1 hp.1.2
  unfold passVal
  split <;> omega

/-- Different regions have different pixels. -/
theorem _root_.Verif.Spec.IsComponentTree.regions_inj {α ι : Type} {adj : α → α → Prop} {f : α → Nat} {px : Finset α}
    {T : RegionTree α ι} (h : IsComponentTree adj f px T) {r r' : ι} (hr : T.isReg r) (hr' : T.isReg r')
    (hs : ∀ q ∈ px, T.Under r q ↔ T.Under r' q) : r = r' := by
  obtain ⟨p, hp, e⟩ := h.reg_lab r hr
  obtain ⟨p', hp', e'⟩ := h.reg_lab r' hr'
  have h1 : T.Under r p := by unfold RegionTree.Under; rw [e]
  have h2 : T.Under r' p' := by unfold RegionTree.Under; rw [e']
  have h3 := (h.under_reg hp ((hs p hp).1 h1)).2
  have h4 := (h.under_reg hp' ((hs p' hp').2 h2)).2
  have h5 := h.lab_gray p hp
  have h6 := h.lab_gray p' hp'
  rw [e] at h5
  rw [e'] at h6
  have h7 : T.gray r = T.gray r' := by rw [h5] at h4; rw [h6] at h3; omega
  have h8 := h.anc_of_common hp h1 ((hs p hp).1 h1) (le_of_eq h7)
  by_contra hn
  have := (h.anc_reg hr h8).2.2 hn
  omega

/-- The whole `extract` on a detector that is new or was last used with the same number of pixels. -/
theorem extracted (hW : 1 ≤ W) (hH : 1 ≤ H) (hm : MaskOK W H mask src) (hsrc : ∀ x y, x < W → y < H → src x y < 256)
    (hd : d.nreg = 0 ∨ d.stackSize = (keptPx W H mask src).card) (cfg : Cfg) (fm fb eight : Bool) :
    ∃ d' dark bright, Original.extract cfg fm fb d W H eight mask src = some (d', dark, bright) ∧
      d'.stackSize = (keptPx W H mask src).card ∧
      (if fm then ∃ T out, DeliveredO cfg W H eight (keptPx W H mask src) (passVal 0 src) 0 T out dark else dark = []) ∧
      (if fb then ∃ T out, DeliveredO cfg W H eight (keptPx W H mask src) (passVal 255 src) 255 T out bright else bright = []) := by
  obtain ⟨A, s, e, hR, ha, hn, hp, -⟩ := Original.allocate_spec (d := d) (eight := eight) hW hH hm hsrc
  have h0 : s.nreg = 0 := by
    rw [hn]
    rcases hd with h | h
    · rw [h]; split <;> rfl
    · rw [if_neg]; rw [ha]; exact not_not.2 h
  have hreg : ∀ c, (s.pts c).reg = none := fun c => (hp c).1
  have hbox : ∀ p ∈ keptPx W H mask src, InBox A p := fun p hp => ((hR.box p).1 hp).1
  -- the dark direction
  have dark : ∃ s1 l, (if fm then Original.channel cfg fm 0 s else some (s, [])) = some (s1, l) ∧
      Ready W H eight mask src A s1 ∧ s1.area = s.area ∧ (fm = false → s1.nreg = 0 ∧ ∀ c, (s1.pts c).reg = none) ∧
      if fm then ∃ T out, DeliveredO cfg W H eight (keptPx W H mask src) (passVal 0 src) 0 T out l else l = [] := by
    cases fm with
    | false => exact ⟨s, [], rfl, hR, rfl, fun _ => ⟨h0, hreg⟩, rfl⟩
    | true =>
      obtain ⟨s1, Ls, e1, hR1, -, -, ha1, hF⟩ := Original.dark_pass hsrc true hR h0 hreg
      obtain ⟨regs, inv, out, recs, e2, e3, hD⟩ := deliver hF hbox (passVal_lt hsrc 0) cfg 0
      refine ⟨{ s1 with regs := regs }, recs, ?_, ?_, ?_, (by simp), pxTree A s1, out, hD⟩
      · rw [if_pos rfl, Original.channel, e1]
        dsimp only
        rw [e2]
        dsimp only
        rw [e3]
      · exact ⟨hR1.box, hR1.left, hR1.top, hR1.D, hR1.img, hR1.area, hR1.order, hR1.mem, hR1.sorted, hR1.cap, hR1.stack,
          hR1.xy⟩
      · exact ha1
  obtain ⟨s1, l, e1, hR1, ha1, h01, hl⟩ := dark
  have bright : ∃ s2 l, (if fb then Original.channel cfg fm 255 s1 else some (s1, [])) = some (s2, l) ∧
      s2.area = s1.area ∧
      if fb then ∃ T out, DeliveredO cfg W H eight (keptPx W H mask src) (passVal 255 src) 255 T out l else l = [] := by
    cases fb with
    | false => exact ⟨s1, [], rfl, rfl, rfl⟩
    | true =>
      obtain ⟨s2, Ls, e1, -, -, ha2, hF⟩ := Original.bright_pass hsrc fm hR1 h01
      obtain ⟨regs, inv, out, recs, e2, e3, hD⟩ := deliver hF hbox (passVal_lt hsrc 255) cfg 255
      refine ⟨{ s2 with regs := regs }, recs, ?_, ha2, pxTree A s2, out, hD⟩
      rw [if_pos rfl, Original.channel, e1]
      dsimp only
      rw [e2]
      dsimp only
      rw [e3]
  obtain ⟨s2, l2, e2, ha2, hl2⟩ := bright
  refine ⟨Original.toDet s2, l, l2, ?_, ?_, hl, hl2⟩
  · unfold Original.extract
    rw [e]
    dsimp only
    rw [e1]
    dsimp only
    rw [e2]
  · show s2.area = _
    rw [ha2, ha1, ha]

/-! ### C79 -/

/-- **C79** For every image, mask and neighbour mode, and whatever a detector was used for before as long as it is new
or was last used with the same number of pixels: both passes of the original detector end, and each leaves the
component tree of the pixels that the mask leaves in; the bright pass that of the inverted image, whatever recognition
did to the regions in between. -/
theorem C79_component_tree (hW : 1 ≤ W) (hH : 1 ≤ H) (hm : MaskOK W H mask src) (hsrc : ∀ x y, x < W → y < H → src x y < 256)
    (hd : d.nreg = 0 ∨ d.stackSize = (keptPx W H mask src).card) (eight : Bool) (regs : Nat → Original.Reg) :
    ∃ A s s1 s2, Original.allocate d W H eight mask src = some s ∧ Original.buildTree true 0 s = some s1 ∧
      IsComponentTree (AdjIn eight W H (keptPx W H mask src)) (fun p => src p.1 p.2) (keptPx W H mask src) (pxTree A s1) ∧
      Original.buildTree true 255 { s1 with regs := regs } = some s2 ∧
      IsComponentTree (AdjIn eight W H (keptPx W H mask src)) (fun p => 255 - src p.1 p.2) (keptPx W H mask src)
        (pxTree A s2) := by
  obtain ⟨A, s, e, hR, ha, hn, hp, -⟩ := Original.allocate_spec (d := d) (eight := eight) hW hH hm hsrc
  have h0 : s.nreg = 0 := by
    rw [hn]
    rcases hd with h | h
    · rw [h]; split <;> rfl
    · rw [if_neg]; rw [ha]; exact not_not.2 h
  obtain ⟨s1, Ls, e1, hR1, -, -, ha1, hF⟩ := Original.dark_pass hsrc true hR h0 fun c => (hp c).1
  have hR2 : Ready W H eight mask src A { s1 with regs := regs } :=
    ⟨hR1.box, hR1.left, hR1.top, hR1.D, hR1.img, hR1.area, hR1.order, hR1.mem, hR1.sorted, hR1.cap, hR1.stack, hR1.xy⟩
  obtain ⟨s2, Ls', e2, -, -, -, hF2⟩ := Original.bright_pass hsrc true hR2 (by simp)
  exact ⟨A, s, s1, s2, e, e1, hF.tree, e2, hF2.tree⟩

/-- The detector as constructed (img_origin_mser.h 21–26). -/
def newDet : Det := ⟨0, fun _ => ⟨0, 0, false, .unknown, 0, 0, none, 0, -1⟩, 0, 0, 0⟩

/-- A mask for a 3×2 image that leaves out the pixel (1, 0). -/
def sampleMask : Mask := .image fun x y => if x = 1 ∧ y = 0 then 0 else 1

theorem sampleBytes : ∀ x y, x < 3 → y < 2 → sampleImg x y < 256 := fun x y _ _ => by
  unfold sampleImg; split <;> [skip; split] <;> decide

example : MaskOK 3 2 sampleMask sampleImg ∧ newDet.nreg = 0 ∧ (keptPx 3 2 sampleMask sampleImg).card = 5 :=
  ⟨⟨(0, 0), mem_keptPx.2 ⟨by decide, by decide⟩⟩, rfl, by decide +kernel⟩

/-! ### C81 -/

/-- **C81** (partial) As long as the duplicate threshold is below 3/5: the candidates of the original detector are the
admitted regions of the component tree, and exactly one region of every group of nested nearly equal candidates is
delivered.  (The full property: for every threshold; whatever the threshold, only admitted regions are delivered.) -/
theorem C81_recognition_partial (hW : 1 ≤ W) (hH : 1 ≤ H) (hm : MaskOK W H mask src)
    (hsrc : ∀ x y, x < W → y < H → src x y < 256) (hd : d.nreg = 0 ∨ d.stackSize = (keptPx W H mask src).card)
    (h32 : Rounding cfg.r32) (h64 : Rounding cfg.r64) (hst : -1 ≤ cfg.stable) (hdup : cfg.dup < cfg.r64 (3 / 5))
    (eight : Bool) :
    ∃ d' dark bright T T' out out' arr arr' gs gs',
      Original.extract cfg true true d W H eight mask src = some (d', dark, bright) ∧
      IsComponentTree (AdjIn eight W H (keptPx W H mask src)) (passVal 0 src) (keptPx W H mask src) T ∧
      Result T cfg (Admitted T (limits cfg)) out arr gs ∧
      List.Forall₂ (RecordedO (keptPx W H mask src) T 0) out.reported dark ∧
      IsComponentTree (AdjIn eight W H (keptPx W H mask src)) (passVal 255 src) (keptPx W H mask src) T' ∧
      Result T' cfg (Admitted T' (limits cfg)) out' arr' gs' ∧
      List.Forall₂ (RecordedO (keptPx W H mask src) T' 255) out'.reported bright := by
  obtain ⟨d', dark, bright, e, -, h1, h2⟩ := extracted hW hH hm hsrc hd cfg true true eight
  obtain ⟨T, out, h1⟩ := h1
  obtain ⟨T', out', h2⟩ := h2
  obtain ⟨arr, gs, h3⟩ := h1.groups h32 h64 hst hdup
  obtain ⟨arr', gs', h4⟩ := h2.groups h32 h64 hst hdup
  exact ⟨d', dark, bright, T, T', out, out', arr, arr', gs, gs', e, h1.tree, h3, h1.recs, h2.tree, h4, h2.recs⟩

/-- **C81** (partial) For every duplicate threshold: only admitted regions are delivered. -/
theorem C81_admitted_partial (hW : 1 ≤ W) (hH : 1 ≤ H) (hm : MaskOK W H mask src)
    (hsrc : ∀ x y, x < W → y < H → src x y < 256) (hd : d.nreg = 0 ∨ d.stackSize = (keptPx W H mask src).card)
    (h32 : Rounding cfg.r32) (hst : -1 ≤ cfg.stable) (eight : Bool) :
    ∃ d' dark bright T T' rs rs',
      Original.extract cfg true true d W H eight mask src = some (d', dark, bright) ∧
      IsComponentTree (AdjIn eight W H (keptPx W H mask src)) (passVal 0 src) (keptPx W H mask src) T ∧
      List.Forall₂ (RecordedO (keptPx W H mask src) T 0) rs dark ∧ (∀ r ∈ rs, Admitted T (limits cfg) r) ∧
      IsComponentTree (AdjIn eight W H (keptPx W H mask src)) (passVal 255 src) (keptPx W H mask src) T' ∧
      List.Forall₂ (RecordedO (keptPx W H mask src) T' 255) rs' bright ∧ ∀ r ∈ rs', Admitted T' (limits cfg) r := by
  obtain ⟨d', dark, bright, e, -, h1, h2⟩ := extracted hW hH hm hsrc hd cfg true true eight
  obtain ⟨T, out, h1⟩ := h1
  obtain ⟨T', out', h2⟩ := h2
  exact ⟨d', dark, bright, T, T', _, _, e, h1.tree, h1.recs, h1.admitted h32 hst, h2.tree, h2.recs, h2.admitted h32 hst⟩

example : Rounding sampleCfg.r32 ∧ Rounding sampleCfg.r64 ∧ -1 ≤ sampleCfg.stable ∧
    sampleCfg.dup < sampleCfg.r64 (3 / 5) ∧ MaskOK 3 2 sampleMask sampleImg ∧ newDet.nreg = 0 :=
  ⟨rounding_id, rounding_id, by norm_num [sampleCfg], by norm_num [sampleCfg],
    ⟨(0, 0), mem_keptPx.2 ⟨by decide, by decide⟩⟩, rfl⟩

/-! ### C82 -/

/-- The points are, each once, the pixels of one connected component of `{val ≤ lev}` in the graph of the pixels `K`,
and one of them has value `lev`. -/
def ComponentIn (eight : Bool) (W H : Nat) (K : Finset (Nat × Nat)) (val : Nat × Nat → Nat) (lev : Nat)
    (pts : List (Nat × Nat)) : Prop :=
  pts.Nodup ∧ ∃ p₀ ∈ K, val p₀ = lev ∧ ∀ q, q ∈ pts ↔ q ∈ K ∧ LConn (AdjIn eight W H K) val lev p₀ q

/-- The records of one direction: every record holds one component and tells its level, size and rectangle; the size
limits are kept; no component comes twice. -/
structure ExactO (cfg : Cfg) (eight : Bool) (W H : Nat) (K : Finset (Nat × Nat)) (val : Nat × Nat → Nat) (gm : Nat)
    (recs : List RecO) : Prop where
  each : ∀ rec ∈ recs, ∃ pts lev, rec.points = pts.map (fun p => ((p.1 : Int), (p.2 : Int))) ∧ pts.length = rec.size ∧
    ComponentIn eight W H K val lev pts ∧ rec.gray = (if gm = 0 then (lev : Int) else 255 - lev) ∧
    SmallestFor (fun x y => (x, y) ∈ rec.points) rec.rect ∧
    cfg.minPoint ≤ (rec.size : Int) ∧ (rec.size : Int) ≤ cfg.maxPoint
  distinct : recs.Pairwise fun a b => ¬ ∀ q, q ∈ a.points ↔ q ∈ b.points

theorem smallest_fold {l : List (Int × Int)} (hl : l ≠ []) :
    SmallestFor (fun x y => (x, y) ∈ l) (l.foldl Rectangle.Rect.appendPoint ⟨0, 0, 0, 0⟩) := by
  cases l with
  | nil => exact absurd rfl hl
  | cons p ps =>
    have := C35_smallest (r := ⟨0, 0, 0, 0⟩) rfl (i := .point p) (l := ps.map .point) (by
      intro j hj
      rcases List.mem_cons.1 hj with rfl | hj
      · trivial
      · obtain ⟨q, _, rfl⟩ := List.mem_map.1 hj
        trivial)
    have ef : ∀ (qs : List (Int × Int)) (a : Rectangle.Rect),
        (qs.map Item.point).foldl appendItem a = qs.foldl Rectangle.Rect.appendPoint a := by
      intro qs
      induction qs with
      | nil => intro a; rfl
      | cons q qs ih => intro a; exact ih _
    rw [← List.map_cons, ef] at this
    have eP : (fun x y => ∃ j ∈ (p :: ps).map Item.point, j.Has x y) = fun x y => (x, y) ∈ p :: ps := by
      funext x y
      refine propext ⟨?_, fun h => ⟨.point (x, y), List.mem_map.2 ⟨_, h, rfl⟩, rfl, rfl⟩⟩
      rintro ⟨j, hj, hx⟩
      obtain ⟨q, hq, rfl⟩ := List.mem_map.1 hj
      obtain ⟨rfl, rfl⟩ := hx
      exact hq
    rw [eP] at this
    exact this

theorem DeliveredO.exact {T : RegionTree (Nat × Nat) Nat} {out : Recognized Nat} {recs : List RecO}
    (h : DeliveredO cfg W H eight K val gm T out recs) : ExactO cfg eight W H K val gm recs := by
  have hget := List.forall₂_iff_get.1 h.recs
  constructor
  · intro rec hrec
    obtain ⟨i, hi, rfl⟩ := List.getElem_of_mem hrec
    have hi' : i < out.reported.length := by rw [hget.1]; exact hi
    have hR := hget.2 i hi' hi
    rw [List.get_eq_getElem, List.get_eq_getElem] at hR
    obtain ⟨pts, k1, k2, k3, k4, k5⟩ := hR.points
    obtain ⟨p, hp, e⟩ := h.tree.reg_lab _ hR.reg
    have hu : T.Under out.reported[i] p := by unfold RegionTree.Under; rw [e]
    have hw := h.within _ (List.getElem_mem hi')
    refine ⟨pts, T.gray out.reported[i], k1, k2, ⟨k3, p, hp, ?_, fun q => ?_⟩, hR.gray, ?_, ?_, ?_⟩
    · have := h.tree.lab_gray p hp
      rw [e] at this
      exact this.symm
    · rw [k4]
      exact and_congr_right fun hq => h.tree.comp _ hR.reg p hp hu q hq
    · rw [k5, k1]
      refine smallest_fold fun h0 => ?_
      have := (k4 p).2 ⟨hp, hu⟩
      rw [List.map_eq_nil_iff.1 h0] at this
      cases this
    · rw [hR.size]; exact hw.1
    · rw [hR.size]; exact hw.2
  · rw [List.pairwise_iff_getElem]
    intro i j hi hj hij hsame
    have hi' : i < out.reported.length := by rw [hget.1]; exact hi
    have hj' : j < out.reported.length := by rw [hget.1]; exact hj
    have hR := hget.2 i hi' hi
    have hR' := hget.2 j hj' hj
    rw [List.get_eq_getElem, List.get_eq_getElem] at hR hR'
    obtain ⟨pts, k1, -, -, k4, -⟩ := hR.points
    obtain ⟨pts', k1', -, -, k4', -⟩ := hR'.points
    have hq : ∀ q, q ∈ pts ↔ q ∈ pts' := by
      have inj : Function.Injective Original.toInt := by
        intro a b e
        simp only [Original.toInt, Prod.mk.injEq, Nat.cast_inj] at e
        exact Prod.ext e.1 e.2
      intro q
      have := hsame (Original.toInt q)
      rwa [k1, k1', List.mem_map_of_injective inj, List.mem_map_of_injective inj] at this
    have := h.tree.regions_inj hR.reg hR'.reg fun q hqK => by
      have a1 := k4 q
      have a2 := k4' q
      have a3 := hq q
      tauto
    rw [h.nodup.getElem_inj_iff] at this
    exact absurd this (Nat.ne_of_lt hij)

/-- **C82** For every image, mask, neighbour mode, direction and configuration: the original detector ends and its
records are exact. -/
theorem C82_records (hW : 1 ≤ W) (hH : 1 ≤ H) (hm : MaskOK W H mask src)
    (hsrc : ∀ x y, x < W → y < H → src x y < 256) (hd : d.nreg = 0 ∨ d.stackSize = (keptPx W H mask src).card)
    (cfg : Cfg) (fm fb eight : Bool) :
    ∃ d' dark bright, Original.extract cfg fm fb d W H eight mask src = some (d', dark, bright) ∧
      ExactO cfg eight W H (keptPx W H mask src) (fun p => src p.1 p.2) 0 dark ∧ (fm = false → dark = []) ∧
      ExactO cfg eight W H (keptPx W H mask src) (fun p => 255 - src p.1 p.2) 255 bright ∧ (fb = false → bright = []) := by
  obtain ⟨d', dark, bright, e, -, h1, h2⟩ := extracted hW hH hm hsrc hd cfg fm fb eight
  have hnil : ∀ {val : Nat × Nat → Nat} {gm : Nat}, ExactO cfg eight W H (keptPx W H mask src) val gm [] :=
    ⟨fun _ h => absurd h (by simp), List.Pairwise.nil⟩
  refine ⟨d', dark, bright, e, ?_, ?_, ?_, ?_⟩
  · cases fm with
    | false => rw [show dark = [] from h1]; exact hnil
    | true => obtain ⟨T, out, h1⟩ := h1; exact h1.exact
  · rintro rfl; exact h1
  · cases fb with
    | false => rw [show bright = [] from h2]; exact hnil
    | true => obtain ⟨T, out, h2⟩ := h2; exact h2.exact
  · rintro rfl; exact h2

/-! ### C80 -/

/-- An image with its mask, as given to `extract`. -/
structure Job where
  W : Nat
  H : Nat
  mask : Mask
  src : Nat → Nat → Nat

/-- The pixels the mask of a job leaves in. -/
def Job.kept (j : Job) : Finset (Nat × Nat) := keptPx j.W j.H j.mask j.src

structure Job.OK (j : Job) : Prop where
  W_pos : 1 ≤ j.W
  H_pos : 1 ≤ j.H
  mask_ok : MaskOK j.W j.H j.mask j.src
  bytes : ∀ x y, x < j.W → y < j.H → j.src x y < 256

/-- A detector used for one image after the other. -/
def runJobs (cfg : Cfg) (fm fb eight : Bool) : Det → List Job → Option (List (List RecO × List RecO))
  | _, [] => some []
  | d, j :: js =>
    match Original.extract cfg fm fb d j.W j.H eight j.mask j.src with
    | none => none
    | some (d, dark, bright) =>
      match runJobs cfg fm fb eight d js with
      | none => none
      | some l => some ((dark, bright) :: l)

/-- What a job must deliver. -/
def JobDone (cfg : Cfg) (fm fb eight : Bool) (j : Job) (o : List RecO × List RecO) : Prop :=
  (if fm then ∃ T out, DeliveredO cfg j.W j.H eight j.kept (passVal 0 j.src) 0 T out o.1 else o.1 = []) ∧
  (if fb then ∃ T out, DeliveredO cfg j.W j.H eight j.kept (passVal 255 j.src) 255 T out o.2 else o.2 = [])

/-- **C80** (partial) A detector used for any number of images that have the same number of unmasked pixels delivers
for each of them what a new detector must deliver.  (The full property: for images of any sizes.  It is false of the
code: `C80_reuse_wrong`.) -/
theorem C80_reuse_partial (cfg : Cfg) (fm fb eight : Bool) {n : Nat} (jobs : List Job) (hok : ∀ j ∈ jobs, j.OK)
    (hn : ∀ j ∈ jobs, j.kept.card = n) (hd : d.nreg = 0 ∨ d.stackSize = n) :
    ∃ outs, runJobs cfg fm fb eight d jobs = some outs ∧ List.Forall₂ (JobDone cfg fm fb eight) jobs outs := by
  induction jobs generalizing d with
  | nil => exact ⟨[], rfl, .nil⟩
  | cons j js ih =>
    have hj := hok j (by simp)
    have hk := hn j (by simp)
    obtain ⟨d', dark, bright, e, hs, h1, h2⟩ := extracted (eight := eight) hj.W_pos hj.H_pos hj.mask_ok hj.bytes
      (hd.imp id fun h => by rw [h, ← hk]; rfl) cfg fm fb
    obtain ⟨outs, e2, h3⟩ := ih (d := d') (fun j hj => hok j (by simp [hj])) (fun j hj => hn j (by simp [hj]))
      (.inr (hs.trans hk))
    refine ⟨(dark, bright) :: outs, ?_, .cons ⟨h1, h2⟩ h3⟩
    unfold runJobs
    rw [e]
    dsimp only
    rw [e2]

/-- A detector used for one image after the other, its memory cleared in between. -/
def runCleared (cfg : Cfg) (fm fb eight : Bool) : Det → List Job → Option (List (List RecO × List RecO))
  | _, [] => some []
  | d, j :: js =>
    match Original.extract cfg fm fb (Original.clearCache d) j.W j.H eight j.mask j.src with
    | none => none
    | some (d, dark, bright) =>
      match runCleared cfg fm fb eight d js with
      | none => none
      | some l => some ((dark, bright) :: l)

/-- **C80** (partial) If `clear_memory_cache` is called before every image, the images may have any sizes. -/
theorem C80_cleared_partial (cfg : Cfg) (fm fb eight : Bool) (jobs : List Job) (hok : ∀ j ∈ jobs, j.OK) (d : Det) :
    ∃ outs, runCleared cfg fm fb eight d jobs = some outs ∧ List.Forall₂ (JobDone cfg fm fb eight) jobs outs := by
  induction jobs generalizing d with
  | nil => exact ⟨[], rfl, .nil⟩
  | cons j js ih =>
    have hj := hok j (by simp)
    obtain ⟨d', dark, bright, e, -, h1, h2⟩ := extracted (d := Original.clearCache d) (eight := eight) hj.W_pos hj.H_pos
      hj.mask_ok hj.bytes (.inl rfl) cfg fm fb
    obtain ⟨outs, e2, h3⟩ := ih (fun j hj => hok j (by simp [hj])) d'
    refine ⟨(dark, bright) :: outs, ?_, .cons ⟨h1, h2⟩ h3⟩
    unfold runCleared
    rw [e]
    dsimp only
    rw [e2]

/-- Two images with five unmasked pixels each. -/
example : (⟨3, 2, sampleMask, sampleImg⟩ : Job).OK ∧ (⟨5, 1, .null, sampleImg⟩ : Job).OK ∧
    (⟨3, 2, sampleMask, sampleImg⟩ : Job).kept.card = 5 ∧ (⟨5, 1, .null, sampleImg⟩ : Job).kept.card = 5 := by
  refine ⟨⟨by decide, by decide, ⟨(0, 0), mem_keptPx.2 ⟨by decide, by decide⟩⟩, sampleBytes⟩, ⟨by decide, by decide, trivial, ?_⟩,
    by decide +kernel, by decide +kernel⟩
  intro x y _ _
  show sampleImg x y < 256
  unfold sampleImg; split <;> [skip; split] <;> decide

/-- Limits that admit all regions of at most two pixels. -/
def openCfg : Cfg := { delta := 0, minPoint := 1, maxPoint := 2, stable := 1, nms := 0, dup := 0, r32 := id, r64 := id }

/-- An image of 3×1 pixels with values 5, 200, 200, then one of 2×1 pixels with value 9. -/
def twoJobs : List Job := [⟨3, 1, .null, fun x _ => if x = 0 then 5 else 200⟩, ⟨2, 1, .null, fun _ _ => 9⟩]

theorem twoJobs_run : ((runJobs openCfg true false false newDet twoJobs).map
    fun l => l.map fun o => o.1.map fun (r : RecO) => (r.gray, r.size)) = some [[(5, 1)], [(5, 1), (9, 2), (0, 0)]] := by
  decide +kernel

theorem second_record {R : Option (List (List RecO × List RecO))} (h : (R.map
    fun l => l.map fun o => o.1.map fun (r : RecO) => (r.gray, r.size)) = some [[(5, 1)], [(5, 1), (9, 2), (0, 0)]]) :
    ∃ outs o, R = some outs ∧ outs[1]? = some o ∧ ∃ rec ∈ o.1, rec.gray = 5 := by
  obtain ⟨outs, rfl, h'⟩ := Option.map_eq_some_iff.1 h
  clear h
  obtain ⟨o₁, l1, rfl, -, h⟩ := List.map_eq_cons_iff.1 h'
  obtain ⟨o, l2, rfl, h, -⟩ := List.map_eq_cons_iff.1 h
  obtain ⟨r, l3, e, h, -⟩ := List.map_eq_cons_iff.1 h
  exact ⟨_, o, rfl, rfl, r, by rw [e]; simp, (Prod.mk.inj h).1⟩

/-- **C80** is false of the code: of the second image, in which all pixels have value 9, a region with gray level 5 is
delivered.  (If the number of pixels changes, `allocate_memory` does not clear `m_regions`.) -/
theorem C80_reuse_wrong : ∃ jobs outs o, (∀ j ∈ jobs, Job.OK j) ∧ runJobs openCfg true false false newDet jobs = some outs ∧
    outs[1]? = some o ∧ (∃ j, jobs[1]? = some j ∧ (∀ x y, j.src x y = 9) ∧ ¬ JobDone openCfg true false false j o) ∧
    ∃ rec ∈ o.1, rec.gray = 5 := by
  obtain ⟨outs, o, e, e1, hrec⟩ := second_record twoJobs_run
  refine ⟨twoJobs, outs, o, ?_, e, e1, ⟨_, rfl, fun _ _ => rfl, ?_⟩, hrec⟩
  · intro j hj
    rcases List.mem_cons.1 hj with rfl | hj
    · exact ⟨by decide, by decide, trivial, fun x y _ _ => by dsimp only; split <;> decide⟩
    · rw [List.mem_singleton.1 hj]
      exact ⟨by decide, by decide, trivial, fun x y _ _ => (by decide : 9 < 256)⟩
  · rintro ⟨⟨T, out, hD⟩, -⟩
    obtain ⟨rec, hr, hg⟩ := hrec
    obtain ⟨pts, lev, -, -, ⟨-, p, -, hv, -⟩, hgr, -⟩ := hD.exact.each rec hr
    have hv : 9 = lev := hv
    rw [hg, if_pos rfl] at hgr
    omega

end Verif.Props
