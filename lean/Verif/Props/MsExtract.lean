import Verif.Props.MsRecog
import Verif.Proof.MsTree
import Verif.Props.LinearMask

/-!
# Property C88: the records of the ms detector
-/

namespace Verif.Props

open Verif.Spec Verif.Recog
open Verif.Flood (idx)
open Verif.FloodMem (MSt labelOf)
open Verif.Extract (Reg Plan planOf)
open Verif.Ms (pairTree pairOut XOutM pointsM)

variable {w h : Nat} {img : Nat → Nat → Nat} {gm : Nat} {ms : MSt} {cfg : Cfg}

/-- Record `i` says what it should about region `r`: its points are the pixels of the region, each once; number,
rectangle and gray value belong to them. -/
structure RecordM (w h gm : Nat) (T : RegionTree (Nat × Nat) Nat) (X : XOutM) (i r : Nat) : Prop where
  read : ∃ D, pointsM X i = some D ∧ D.Nodup ∧ (X.ms i).size = D.length ∧
    (∀ pt, pt ∈ D ↔ ∃ p ∈ pixels w h, T.Under r p ∧ pt = ((p.1 : Int), (p.2 : Int))) ∧ IsBoundingBox D (X.ms i).rect
  gray : (X.ms i).gray = T.gray r ^^^ gm

theorem extractN {nreg fuel : Nat} {T : RegionTree (Nat × Nat) Nat} {f : Nat × Nat → Nat} {label : Nat → Nat}
    (hT : IsComponentTree (Adj4 w h) f (pixels w h) T) (hf : ∀ p ∈ pixels w h, f p < 256)
    (hreg : ∀ r, T.isReg r ↔ r < nreg) (hlab : ∀ p ∈ pixels w h, T.lab p = label (idx w p.1 p.2))
    {uv : Bool} {out : Recognized Nat} (hO : Outcome (treeOf T T.isReg 0) cfg uv (List.range nreg) out) {thr : Int}
    (hmem : thr = -1 ∨ w * h < 2 ^ 22) (hfuel : 258 ≤ fuel) (gm : Nat) (heap0 : Reg → Option Int) (junk : Reg → Nat) :
    ∃ X, Ms.extractM (Ms.envM w h nreg) thr gm fuel out.pixels label heap0 (Extract.ofRecognized (Ms.regsM out.R) junk)
        (out.reported.map fun r => (0, r)) = some X ∧
      X.count = out.reported.length ∧
      ∀ i (hi : i < out.reported.length), RecordM w h gm T X i out.reported[i] := by
  have hok : (treeOf T T.isReg 0).Ok := treeOf_ok (m := 0) (hT.ok hf) (fun _ => id)
  obtain ⟨arr, gs, hr⟩ := result_of hok hO
  have hlive : ∀ r ∈ out.reported, T.isReg r := fun r h' => ((hr.mem r).1 (hr.sub r h')).1
  have hcard : (pixels w h).card = w * h := by simp [pixels]
  have H : Extract.Handover0 (Ms.envM w h nreg) (fun _ => label) (pixels w h) (pairTree T) 0 (pairOut out) := by
    refine Ms.handover_pair (fun p => mem_pixels) hreg hok hO.shows_ ?_ hlive hr.rep_nodup ?_ hlab hT.lab_reg hT.reg_lab hT.size_eq
    · intro r hl
      rcases hr.flags r hl with ⟨a, b⟩ | ⟨a, b⟩
      · exact ⟨fun _ => b, fun _ => a⟩
      · rw [a]; exact ⟨fun e => (by cases e), fun e => absurd e b⟩
    · obtain ⟨arr', gs', hA, _, e, _⟩ := hO.found
      rw [e]
      exact hA.sorted.sublist List.filter_sublist
  have hfu : 257 * (0 + 1) + 1 ≤ fuel := by omega
  obtain ⟨rk, nu, hc⟩ := H.climbs (junk := junk)
  have R := H.ready1 hfu hc
  have ok : (planOf (Ms.envM w h nreg) (fun _ => label) thr (Extract.ofRecognized (pairOut out).R junk) nu (pairOut out).reported).Ok :=
    R.toReady0.ok
  have hlen : (pairOut out).reported.length = out.reported.length := by simp [pairOut]
  have hsizes : (out.reported.map T.size).sum ≤ 256 * (w * h) := by
    have := Ms.sizes_le hok hT.lab_reg hr.rep_nodup hlive hT.size_eq
    rwa [hcard] at this
  have hfull : ∀ i (hi : i < (pairOut out).reported.length),
      ((planOf (Ms.envM w h nreg) (fun _ => label) thr (Extract.ofRecognized (pairOut out).R junk) nu (pairOut out).reported).full i).length
        = T.size (out.reported[i]'(by omega)) := by
    intro i hi
    rw [(Plan.full_perm ok hi).length_eq, ← Plan.list_eq, H.list_length hfu hc hi]
    simp [pairOut, pairTree]
  generalize hP : planOf (Ms.envM w h nreg) (fun _ => label) thr (Extract.ofRecognized (pairOut out).R junk) nu
    (pairOut out).reported = P at ok hfull
  have hN : P.N = out.reported.length := by rw [← hP]; exact hlen
  have hsum : Ms.sumLen (fun j => (P.full j).length) (pairOut out).reported.length = (out.reported.map T.size).sum := by
    rw [hlen, Ms.sumLen_eq (l := out.reported.map T.size) _ (by simp) fun i hi => ?_]
    · rw [List.take_of_length_le (by simp)]
    · rw [hfull i (by simpa [pairOut] using hi)]; simp
  have hpos : ∀ i, i < (pairOut out).reported.length → 1 ≤ (P.full i).length := by
    intro i hi
    rw [hfull i hi]
    exact hok.sz_pos _ (hlive _ (List.getElem_mem _))
  have hdouble := Ms.sumLen_double (f := Ms.lenB P) (g := fun j => (P.full j).length)
    (t := (pairOut out).reported.length) fun i hi => Ms.lenB_le P hpos hi
  have hpix : out.pixels = (out.reported.map T.size).sum := hr.pixels
  have hI : thr = Ms.intMax → w * h < 2 ^ 22 := by
    intro e
    rcases hmem with h1 | h1
    · rw [h1] at e; exact absurd e (by decide)
    · exact h1
  obtain ⟨A, Y, h1, h2, h3, h4⟩ := Ms.extractM_spec (thr := thr) R rfl rfl
    (fun k hk => by simp [Ms.envM, hk, Extract.scan]) gm out.pixels heap0
    (fun e => by have := hI e; omega)
    (fun e => by rw [hP, hsum, hpix])
    (fun e _ => by
      rw [hP]
      have := hmem.resolve_left e
      omega)
  rw [hP] at h2 h3
  refine ⟨Y, h1, by rw [h3.count, hN], fun i hi => ⟨?_, ?_⟩⟩
  · have hi' : i < P.N := by omega
    obtain ⟨L, e1, e2⟩ := Ms.pointsM_spec h2 h3 hi'
    have hi'' : i < (pairOut out).reported.length := by omega
    have e3 := Plan.full_perm ok hi'
    rw [← Plan.list_eq] at e3
    have hmemL : ∀ pt, pt ∈ L ↔ ∃ p ∈ pixels w h, T.Under out.reported[i] p ∧ pt = ((p.1 : Int), (p.2 : Int)) := by
      intro pt
      rw [e2.mem_iff, e3.mem_iff, ← hP, H.mem_list hfu hc hi'']
      have : (pairOut out).reported[i] = (0, out.reported[i]) := by simp [pairOut]
      rw [this]
      simp only [Ms.pair_under]
      rfl
    refine ⟨L, e1, ?_, ?_, hmemL, ?_⟩
    · rw [e2.nodup_iff, e3.nodup_iff, ← hP]; exact H.list_nodup i
    · rw [h3.size i hi', e2.length_eq]
    · have hb := h3.rect i hi'
      refine ⟨fun p hp => ?_, ?_, ?_, ?_, ?_⟩
      · have hp' := e2.mem_iff.1 hp
        have a := hb.lower p hp'
        have b := hb.upper trivial p hp'
        omega
      · obtain ⟨p, a, b⟩ := hb.left; exact ⟨p, e2.mem_iff.2 a, b⟩
      · obtain ⟨p, a, b⟩ := hb.top; exact ⟨p, e2.mem_iff.2 a, b⟩
      · obtain ⟨p, a, b⟩ := hb.right; exact ⟨p, e2.mem_iff.2 a, b⟩
      · obtain ⟨p, a, b⟩ := hb.bottom; exact ⟨p, e2.mem_iff.2 a, b⟩
  · have hi'' : i < (pairOut out).reported.length := by omega
    rw [h4 i hi'']
    have : (pairOut out).reported[i] = (0, out.reported[i]) := by simp [pairOut]
    rw [this]
    congr 1
    exact hO.shows_.gray _

/-- **C88** After flooding, for every configuration and every threshold for shared memory (`thr`: −1 an array for every
record, `INT_MAX` one array with every region written out, otherwise one array in which large records refer to the
records inside of them): recognition and extraction run to the end without an invalid access, whatever uninitialised
memory contains, and there is one record for every reported region with its pixels, their number, their rectangle and
its gray value. -/
theorem C88_records {f : Nat × Nat → Nat} (hT : IsComponentTree (Adj4 w h) f (pixels w h) (memTree w ms))
    (hf : ∀ p ∈ pixels w h, f p < 256) (hc : w * h < 2 ^ 31) (h64 : Rounding cfg.r64) {thr : Int}
    (hmem : thr = -1 ∨ w * h < 2 ^ 22) (var : Nat → ℚ) (msize exceed gm : Nat) (heap0 : Reg → Option Int)
    (junk : Reg → Nat) :
    ∃ out X, Ms.recognize cfg ms.nreg ms.regs var msize exceed = some out ∧
      Ms.extract w h ms.nreg ms.words thr gm 258 heap0 junk out = some X ∧ X.count = out.reported.length ∧
      ∀ i (hi : i < out.reported.length), RecordM w h gm (treeM w ms) X i out.reported[i] := by
  have hT' := treeM_of hT
  obtain ⟨out, e, hO⟩ := recogM hT' hf hc var msize exceed h64
  obtain ⟨X, h1, h2, h3⟩ := extractN (nreg := ms.nreg) (label := labelOf ms.words) hT' hf (fun _ => Iff.rfl) (fun _ _ => rfl) hO hmem (Nat.le_refl 258) gm heap0 junk
  exact ⟨out, X, e, h1, h2, h3⟩

/-- A record without reference to the tree. -/
theorem recordM_component {f : Nat × Nat → Nat} {T : RegionTree (Nat × Nat) Nat} {X : XOutM} {i r : Nat}
    (hT : IsComponentTree (Adj4 w h) f (pixels w h) T) (hr : T.isReg r) (hR : RecordM w h gm T X i r) :
    ∃ D lev, pointsM X i = some D ∧ (X.ms i).size = D.length ∧ (X.ms i).gray = lev ^^^ gm ∧
      IsComponentAt w h f lev D ∧ IsBoundingBox D (X.ms i).rect := by
  obtain ⟨D, h1, h2, h3, h4, h5⟩ := hR.read
  obtain ⟨p₀, hp₀, he⟩ := hT.reg_lab _ hr
  have hu : T.Under r p₀ := by rw [← he]; exact Relation.ReflTransGen.refl
  refine ⟨D, T.gray r, h1, h3, hR.gray, ⟨h2, p₀, hp₀, (hT.lab_gray p₀ hp₀).symm.trans (by rw [he]), fun pt => ?_⟩, h5⟩
  rw [h4]
  constructor
  · rintro ⟨p, hp, hu', e⟩; exact ⟨p, hp, (hT.comp _ hr p₀ hp₀ hu p hp).1 hu', e⟩
  · rintro ⟨p, hp, hu', e⟩; exact ⟨p, hp, (hT.comp _ hr p₀ hp₀ hu p hp).2 hu', e⟩

/-- **C88** What a caller sees of the dark pass: with fewer than 256 gray values in the image, every record holds
one connected component of the pixels up to its gray value, each pixel once, with number and rectangle, and its gray value is the
brightest of the region. -/
theorem C88_dark_partial {b : FloodMem.Buf} {ls : Nat → Nat} {fromMin : Bool} (hI : ImageOK w h img 0)
    (h0 : b.top 0 = 0) (hg : grayCount w h img 0 < 256) (h64 : Rounding cfg.r64) (thr : Int) (hmem : w * h < 2 ^ 22)
    (var : Nat → ℚ) (msize exceed : Nat) (heap0 : Reg → Option Int) (junk : Reg → Nat) :
    ∃ ms out X, Ms.buildTree w h img 0 fromMin (5 * (w * h)) b ls = .done ms ∧
      Ms.recognize cfg ms.nreg ms.regs var msize exceed = some out ∧
      Ms.extract w h ms.nreg ms.words thr 0 258 heap0 junk out = some X ∧
      ∀ i, i < X.count → ∃ D, pointsM X i = some D ∧ (X.ms i).size = D.length ∧
        IsComponentAt w h (fun p => img p.1 p.2) (X.ms i).gray D ∧ IsBoundingBox D (X.ms i).rect ∧
        SourceLevel false img D (X.ms i).gray := by
  obtain ⟨ms, e, hT⟩ := C86_dark_partial (b := b) (ls := ls) (fromMin := fromMin) hI (by omega) h0 hg
  obtain ⟨out, X, e1, e2, h1, h2⟩ := C88_records (cfg := cfg) hT
    (fun p hp => hI.img_lt _ _ (mem_pixels.1 hp).1 (mem_pixels.1 hp).2) (by omega) h64 (.inr hmem) var msize exceed 0 heap0 junk
  refine ⟨ms, out, X, e, e1, e2, fun i hi => ?_⟩
  have hT' := treeM_of hT
  have hR := h2 i (by omega)
  have hr : (treeM w ms).isReg (out.reported[i]'(by omega)) := by
    obtain ⟨out', e', hO⟩ := recogM (cfg := cfg) hT' (fun p hp => hI.img_lt _ _ (mem_pixels.1 hp).1 (mem_pixels.1 hp).2) (by omega) var msize exceed h64
    obtain rfl := Option.some.inj (e1.symm.trans e')
    obtain ⟨arr, gs, hr⟩ := result_of (treeOf_ok (m := 0) (hT'.ok fun p hp => hI.img_lt _ _ (mem_pixels.1 hp).1 (mem_pixels.1 hp).2) (fun _ => id)) hO
    exact ((hr.mem _).1 (hr.sub _ (List.getElem_mem _))).1
  obtain ⟨D, lev, k1, k2, k3, k4, k5⟩ := recordM_component hT' hr hR
  rw [Nat.xor_zero] at k3
  rw [k3]
  obtain ⟨⟨p, hp, hD, he⟩, ha⟩ := component_gray k4
  exact ⟨D, k1, k2, k4, k5, ⟨⟨p, hD, he⟩, fun q hq => by simpa using (ha q hq).2⟩⟩

/-- **C88** And of the bright pass after the dark one: the gray value is the darkest of the region. -/
theorem C88_bright_after_dark_partial {b : FloodMem.Buf} {ls : Nat → Nat} {n1 : Nat} {m1 : MSt} (hI : ImageOK w h img 0)
    (h0 : b.top 0 = 0) (hg : grayCount w h img 0 < 256) (h64 : Rounding cfg.r64) (thr : Int) (hmem : w * h < 2 ^ 22)
    (hr1 : Ms.buildTree w h img 0 true n1 b ls = .done m1) (hjunk : Nat → Option Nat)
    (var : Nat → ℚ) (msize exceed : Nat) (heap0 : Reg → Option Int) (junk : Reg → Nat) :
    ∃ ms out X, Ms.buildTree w h img 255 true (5 * (w * h)) { m1.toBuf with heap := hjunk }
          (Ms.preProcess w h img 0 true b ls).2 = .done ms ∧
      Ms.recognize cfg ms.nreg ms.regs var msize exceed = some out ∧
      Ms.extract w h ms.nreg ms.words thr 255 258 heap0 junk out = some X ∧
      ∀ i, i < X.count → ∃ D, pointsM X i = some D ∧ (X.ms i).size = D.length ∧
        IsComponentAt w h (fun p => 255 - img p.1 p.2) (255 - (X.ms i).gray) D ∧ IsBoundingBox D (X.ms i).rect ∧
        SourceLevel true img D (X.ms i).gray := by
  obtain ⟨ms, e, hT⟩ := C86_bright_after_dark_partial hI (by omega) h0 hg hr1 hjunk
  have hf : ∀ p ∈ pixels w h, 255 - img p.1 p.2 < 256 := fun p _ => by omega
  obtain ⟨out, X, e1, e2, h1, h2⟩ := C88_records (cfg := cfg) hT hf (by omega) h64 (.inr hmem) var msize exceed 255 heap0 junk
  refine ⟨ms, out, X, e, e1, e2, fun i hi => ?_⟩
  have hT' := treeM_of hT
  have hR := h2 i (by omega)
  have hok := hT'.ok hf
  have hr : (treeM w ms).isReg (out.reported[i]'(by omega)) := by
    obtain ⟨out', e', hO⟩ := recogM (cfg := cfg) hT' hf (by omega) var msize exceed h64
    obtain rfl := Option.some.inj (e1.symm.trans e')
    obtain ⟨arr, gs, hr⟩ := result_of (treeOf_ok (m := 0) hok (fun _ => id)) hO
    exact ((hr.mem _).1 (hr.sub _ (List.getElem_mem _))).1
  obtain ⟨D, lev, k1, k2, k3, k4, k5⟩ := recordM_component hT' hr hR
  obtain ⟨⟨p, hp, hD, he⟩, ha⟩ := component_gray k4
  have hlev : lev < 256 := by rw [← he]; exact hf p hp
  rw [FloodMem.xor_255 _ hlev] at k3
  have hpi := hI.img_lt _ _ (mem_pixels.1 hp).1 (mem_pixels.1 hp).2
  refine ⟨D, k1, k2, ?_, k5, ⟨⟨p, hD, by omega⟩, fun q hq => ?_⟩⟩
  · rw [k3, show 255 - (255 - lev) = lev by omega]; exact k4
  · obtain ⟨q1, q2⟩ := ha q hq
    have := hI.img_lt _ _ (mem_pixels.1 q1).1 (mem_pixels.1 q1).2
    simp only [if_true]
    omega

/-! ### C89: agreement -/

/-- The pixels `S` are delivered with gray level `gray` in some record. -/
def DeliveredM (X : XOutM) (S : Finset (Nat × Nat)) (gray : Nat) : Prop :=
  ∃ i, i < X.count ∧ (X.ms i).gray = gray ∧ ∃ D, pointsM X i = some D ∧ ∀ q : Nat × Nat, q ∈ S ↔ ((q.1 : Int), (q.2 : Int)) ∈ D

theorem deliveredM_iff {T : RegionTree (Nat × Nat) Nat} {X : XOutM} {l : List Nat} (hc : X.count = l.length)
    (hR : ∀ i (hi : i < l.length), RecordM w h gm T X i l[i]) (S : Finset (Nat × Nat)) (lev : Nat) :
    DeliveredM X S (lev ^^^ gm) ↔ Delivered (pixels w h) T l S lev := by
  have hx : ∀ a b : Nat, a ^^^ gm = b ^^^ gm ↔ a = b := by
    intro a b
    constructor
    · intro e
      have := congrArg (· ^^^ gm) e
      simpa [Nat.xor_assoc] using this
    · rintro rfl; rfl
  have hD : ∀ i (hi : i < l.length), ∃ D, pointsM X i = some D ∧
      ∀ q : Nat × Nat, ((q.1 : Int), (q.2 : Int)) ∈ D ↔ q ∈ pixels w h ∧ T.Under l[i] q := by
    intro i hi
    obtain ⟨D, h1, -, -, h4, -⟩ := (hR i hi).read
    refine ⟨D, h1, fun q => ?_⟩
    rw [h4]
    constructor
    · rintro ⟨p, hp, hu, e⟩
      obtain rfl := Extract.toPt_inj (p := q) (q := p) e
      exact ⟨hp, hu⟩
    · rintro ⟨hp, hu⟩; exact ⟨q, hp, hu, rfl⟩
  constructor
  · rintro ⟨i, hi, hg, D, h1, h2⟩
    have hi' : i < l.length := by omega
    rw [(hR i hi').gray, hx] at hg
    obtain ⟨D', h3, h4⟩ := hD i hi'
    obtain rfl := Option.some.inj (h1.symm.trans h3)
    exact ⟨l[i], List.getElem_mem _, hg, fun q => (h2 q).trans (h4 q)⟩
  · rintro ⟨r, hr, hg, k⟩
    obtain ⟨i, hi, rfl⟩ := List.getElem_of_mem hr
    obtain ⟨D, h3, h4⟩ := hD i hi
    exact ⟨i, by omega, by rw [(hR i hi).gray, hg], D, h3, fun q => (k q).trans (h4 q).symm⟩

/-- **C89** (partial) As long as the duplicate threshold is below 2/5 and the tree is the component tree (C86), the
records of the ms detector hold the same regions with the same gray values as V2 and V1 report with any number of
threads, in all three ways of storing points.  (The full property: for every threshold.) -/
theorem C89_ms_agrees_partial {T : RegionTree (Nat × Nat) (Nat × Nat)} {outV : Recognized (Nat × Nat)}
    (hI : ImageOK w h img gm) (hc : w * h < 2 ^ 22)
    (hT : IsComponentTree (Adj4 w h) (fun p => img p.1 p.2 ^^^ gm) (pixels w h) (memTree w ms))
    (h32 : Rounding cfg.r32) (h64 : Rounding cfg.r64) (hst : -1 ≤ cfg.stable) (hde : 1 ≤ cfg.delta)
    (hd : cfg.dup < cfg.r64 (2 / 5)) (hD : Detected cfg w h img gm T outV) (thr : Int)
    (var : Nat → ℚ) (msize exceed : Nat) (heap0 : Reg → Option Int) (junk : Reg → Nat) :
    ∃ out X, Ms.recognize cfg ms.nreg ms.regs var msize exceed = some out ∧
      Ms.extract w h ms.nreg ms.words thr gm 258 heap0 junk out = some X ∧ X.count = outV.reported.length ∧
      ∀ S lev, DeliveredM X S (lev ^^^ gm) ↔ Delivered (pixels w h) T outV.reported S lev := by
  have hd' : cfg.dup < cfg.r64 (3 / 5) := lt_of_lt_of_le hd (h64.mono _ _ (by norm_num))
  obtain ⟨k1, arr, gs, k2⟩ := hD.result hI (by omega) h32 h64 hst hde hd'
  have hf := graysV1 hI
  obtain ⟨out, X, e1, e2, h1, h2⟩ := C88_records (cfg := cfg) (thr := thr) hT hf (by omega) h64 (.inr hc) var msize exceed gm heap0 junk
  obtain ⟨out', arr', gs', e1', hR⟩ := result_ms (treeM_of hT) hf (by omega) var msize exceed h32 h64 hst hde
  obtain rfl := Option.some.inj (e1.symm.trans e1')
  obtain ⟨f1, -, f3⟩ := same_report (treeM_of hT) k1 hf ⟨(0, 0), mem_pixels.2 ⟨hI.w_pos, hI.h_pos⟩⟩ h32 h64 hd hR k2
  refine ⟨out, X, e1, e2, h1.trans f1, fun S lev => ?_⟩
  rw [deliveredM_iff h1 h2, f3]

/-- Flooding supplies the tree, the sizes fit, and V2 runs on the same image. -/
example : ∃ ms T out, IsComponentTree (Adj4 3 2) (fun p => sampleImg p.1 p.2 ^^^ 0) (pixels 3 2) (memTree 3 ms) ∧
    ImageOK 3 2 sampleImg 0 ∧ grayCount 3 2 sampleImg 0 < 256 ∧ emptyBuf.top 0 = 0 ∧ 3 * 2 < 2 ^ 22 ∧
    Detected sampleCfg 3 2 sampleImg 0 T out ∧ sampleCfg.dup < sampleCfg.r64 (2 / 5) ∧
    Ms.buildTree 3 2 sampleImg 0 true (5 * (3 * 2)) emptyBuf (fun _ => 0) = .done ms := by
  have hI : ImageOK 3 2 sampleImg 0 :=
    ⟨by decide, by decide, fun x y _ _ => by unfold sampleImg; split <;> [skip; split] <;> decide, by decide⟩
  have hst : -1 ≤ sampleCfg.stable := by norm_num [sampleCfg]
  obtain ⟨m1, e, h1⟩ := C86_dark_partial (b := emptyBuf) (ls := fun _ => 0) (fromMin := true) hI (by decide) rfl (by decide)
  obtain ⟨ms₁, h2⟩ := patchTrees_exist (n := 1) (hp := 1) (vp := 1) rfl (by decide) (by decide) hI (by decide) (by decide)
  obtain ⟨W₁, out₁, arr₁, gs₁, b1, b2, b3, b4⟩ := C23_image_serial (cfg := sampleCfg) (msize := 0) (exceed := 0) h2 (le_refl _)
    (fun _ => 0) rounding_id rounding_id hst (by decide)
  exact ⟨m1, _, out₁, by simpa using h1, hI, by decide, rfl, by decide, .one _ h2 (le_refl _) b1 b3, by norm_num [sampleCfg], e⟩

/-- **C89** is false of the code for large thresholds: with threshold 2 the ms detector and V2 with some number of
threads deliver different regions. -/
theorem C89_reports_differ {b : FloodMem.Buf} (h0 : b.top 0 = 0) (ls : Nat → Nat) (thr : Int) (var : Nat → ℚ) (msize exceed : Nat)
    (heap0 : Reg → Option Int) (junk : Reg → Nat) : ∃ ms outM X T out,
    Ms.buildTree 8 4 hookImg 0 true (5 * (8 * 4)) b ls = .done ms ∧
    Ms.recognize hookCfg ms.nreg ms.regs var msize exceed = some outM ∧
    Ms.extract 8 4 ms.nreg ms.words thr 0 258 heap0 junk outM = some X ∧
    Detected hookCfg 8 4 hookImg 0 T out ∧
    ¬ ∀ S lev, DeliveredM X S (lev ^^^ 0) ↔ Delivered (pixels 8 4) T out.reported S lev := by
  obtain ⟨ms, outM, X, h1, h2, h3, -⟩ := C88_dark_partial (cfg := hookCfg) (b := b) (ls := ls) (fromMin := true) hook_ok h0
    (by decide +kernel) rounding_id thr (by decide) var msize exceed heap0 junk
  obtain ⟨T, T', out, out', e1, e2, e3, e4⟩ := C70_threads_matter (fun _ => 0) 0 0
  by_cases hc : ∀ S lev, DeliveredM X S (lev ^^^ 0) ↔ Delivered (pixels 8 4) T out.reported S lev
  · refine ⟨ms, outM, X, T', out', h1, h2, h3, e2, fun hc' => e4 ?_⟩
    exact (hc' _ 1).1 ((hc _ 1).2 e3)
  · exact ⟨ms, outM, X, T, out, h1, h2, h3, e1, hc⟩

end Verif.Props
