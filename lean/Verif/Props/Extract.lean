import Verif.Proof.ExtractRect
import Verif.Proof.RecogKeep
import Verif.Props.Whole

/-!
# Properties C25 – C29: the pixels of the reported regions
-/

namespace Verif.Props

open Verif.Spec Verif.Recog Verif.Partition Verif.Extract
open Verif.FloodMem (MSt labelOf)
open Verif.Connect (World Str Res)

variable {w h : Nat} {img : Nat → Nat → Nat} {gm fuel : Nat} {ms : Nat → MSt}
  {cfg : Cfg} {msize exceed : Nat}

/-- What extraction sees of the patches. -/
def patchEnv (n hp vp w h : Nat) (ms : Nat → MSt) : Env :=
  ⟨n, fun k => (ms k).nreg, pinfo hp vp w h⟩

/-- The link words of the patches after flooding, as positions of region objects. -/
def patchLabels (ms : Nat → MSt) (k c : Nat) : Nat := labelOf (ms k).words c

theorem patchEnv_reg {n hp vp : Nat} (r : Nat × Nat) :
    IsReg (patchEnv n hp vp w h ms) r ↔ isPatchReg n ms r := Iff.rfl

theorem res_keep {isReg : Nat × Nat → Prop} {R R' : RForest (Nat × Nat)}
    (hp : ∀ r, isReg r → ∀ q, (R r).parent = some q → isReg q)
    (h1 : ∀ r, isReg r → ((R r).flag = .merged ↔ (R' r).flag = .merged))
    (h2 : ∀ r, (R r).flag = .merged → (R' r).parent = (R r).parent) :
    ∀ {k : Nat} {r x : Nat × Nat}, isReg r → Res (toForest R) k r x → Res (toForest R') k r x
  | 0, r, x, hr, ⟨h, e⟩ => ⟨by
      rw [show (toForest R r).merged = decide ((R r).flag = .merged) from rfl, decide_eq_false_iff_not,
        h1 r hr] at h
      rw [show (toForest R' r).merged = decide ((R' r).flag = .merged) from rfl, decide_eq_false_iff_not]
      exact h, e⟩
  | k + 1, r, x, hr, ⟨h, y, e, hres⟩ => by
      rw [show (toForest R r).merged = decide ((R r).flag = .merged) from rfl, decide_eq_true_iff] at h
      refine ⟨?_, y, ?_, res_keep hp h1 h2 (hp r hr y e) hres⟩
      · rw [show (toForest R' r).merged = decide ((R' r).flag = .merged) from rfl, decide_eq_true_iff]
        exact (h1 r hr).1 h
      · exact (h2 r h).trans e

/-- The cells of the patches are the pixels of the image. -/
theorem cell_has {k : Nat} {rc : Nat × Nat} (hrc : rc ∈ scan (pinfo 2 2 w h k).width (pinfo 2 2 w h k).height) :
    (pinfo 2 2 w h k).Has (pxOf (patchEnv 4 2 2 w h ms) k rc) := by
  rw [mem_scan] at hrc
  show (pinfo 2 2 w h k).left ≤ rc.2 + (pinfo 2 2 w h k).left ∧ rc.2 + (pinfo 2 2 w h k).left < _ ∧
    (pinfo 2 2 w h k).top ≤ rc.1 + (pinfo 2 2 w h k).top ∧ rc.1 + (pinfo 2 2 w h k).top < _
  omega

theorem cell_pixel {k : Nat} (hk : k < 4) {rc : Nat × Nat}
    (hrc : rc ∈ scan (pinfo 2 2 w h k).width (pinfo 2 2 w h k).height) :
    pxOf (patchEnv 4 2 2 w h ms) k rc ∈ pixels w h := by
  have h1 := cell_has (ms := ms) hrc
  have h2 := pinfo_inside (hp := 2) (vp := 2) (w := w) (h := h) (by decide) (k := k) (by omega)
  rw [mem_pixels]
  unfold PInfo.Has at h1
  omega

/-- Flooding, joining and recognition with four threads leave behind what extraction needs. -/
theorem handover (hP : PatchTrees 4 2 2 w h img gm ms) (hf : 512 * joinCount 4 2 2 w h ≤ fuel) (hw : w ≤ 65535)
    (v : Nat × Nat → ℚ) (h32 : Rounding cfg.r32) (h64 : Rounding cfg.r64) (hst : -1 ≤ cfg.stable) :
    ∃ W out arr gs m, mergeTrees 4 2 2 w h ms fuel 512 = some W ∧
      IsComponentTree (Adj4 w h) (fun p => img p.1 p.2 ^^^ gm) (pixels w h) (mergedTree 4 2 2 w h ms fuel W) ∧
      recognizeAccel cfg Prod.fst fuel 4 (fun k => (pinfo 2 2 w h k).width * (pinfo 2 2 w h k).height + 257)
        (patchRegs ms) msize exceed (ofForest W.F v) = some out ∧
      Result (mergedTree 4 2 2 w h ms fuel W) cfg (Selected (mergedTree 4 2 2 w h ms fuel W) (limits cfg)) out arr gs ∧
      m ≤ fuel ∧ Handover (patchEnv 4 2 2 w h ms) (patchLabels ms) (pixels w h) (mergedTree 4 2 2 w h ms fuel W) m out := by
  obtain ⟨W, e1, hC, hH, hsz⟩ := held_after_merge hP hf
  obtain ⟨m, hm, hT, hR, hreg, hfresh⟩ := hH.use
  have hB : Blocks (isPatchReg 4 ms) Prod.fst 4 (patchRegs ms) := patch_blocks
  obtain ⟨out, e2, hO⟩ := recognizeAccel_spec (cfg := cfg) (pidx := Prod.fst) hT h32 h64 hsz hm hB.all.1
    (fun r hr => (hB.all.2 r).1 hr) (fun r hr => (hB.all.2 r).2 (hreg r hr))
    (fun k hk r hr => by rw [hB.mem k hk]; exact ⟨fun e => ⟨hr, e⟩, fun e => e.2⟩) (patch_regs_fit hP) (hR v) (hfresh v)
    msize exceed
  obtain ⟨arr, gs, hr⟩ := result_of hT hO
  have hsel : (fun r => (mergedTree 4 2 2 w h ms fuel W).isReg r ∧
      ¬ finalBad (treeOf (mergedTree 4 2 2 w h ms fuel W) (isPatchReg 4 ms) m) cfg true r)
      = Selected (mergedTree 4 2 2 w h ms fuel W) (limits cfg) :=
    funext fun r => propext (selected_iff hH.ok hreg h32 hst)
  rw [hsel] at hr
  refine ⟨W, out, arr, gs, m, e1, hC, e2, hr, hm, ?_⟩
  have hflag : ∀ r, (mergedTree 4 2 2 w h ms fuel W).isReg r → ((out.R r).flag = .valid ↔ r ∈ out.reported) := by
    intro r hl
    rcases hr.flags r hl with ⟨a, b⟩ | ⟨a, b⟩
    · exact ⟨fun _ => b, fun _ => a⟩
    · rw [a]; exact ⟨fun e => (by cases e), fun e => absurd e b⟩
  have hlive : ∀ r ∈ out.reported, (mergedTree 4 2 2 w h ms fuel W).isReg r :=
    fun r h' => ((hr.mem r).1 (hr.sub r h')).1
  have hst0 := (hR v).str
  refine ⟨⟨Nat.le_refl _, hT, hO.shows_, hflag, hlive, hr.rep_nodup, ?_, ?_, fun k hk rc hrc => cell_pixel hk hrc, ?_, ?_,
    hC.reg_lab, hC.size_eq⟩, ?_⟩
  · obtain ⟨arr', gs', hA, _, e, _⟩ := hO.found
    rw [e]
    exact hA.sorted.sublist List.filter_sublist
  · intro k hk rc hrc
    have hlab := (hP.tree k hk).lab_reg (rc.2, rc.1)
      (mem_pixels.2 (by have := mem_scan.1 hrc; exact ⟨this.2, this.1⟩))
    refine ⟨hlab, ?_⟩
    have hisreg : isPatchReg 4 ms (k, patchLabels ms k (Flood.idx (pinfo 2 2 w h k).width rc.2 rc.1)) := ⟨hk, hlab⟩
    obtain ⟨j, hj, x, hres⟩ := hst0.res _ hisreg
    refine ⟨j, ?_⟩
    have hx : (mergedTree 4 2 2 w h ms fuel W).lab (pxOf (patchEnv 4 2 2 w h ms) k rc) = x := by
      have hpo : patchOf 2 2 w h (pxOf (patchEnv 4 2 2 w h ms) k rc) = k :=
        (patchOf_eq (by decide) (by decide) (cell_pixel hk hrc) (by omega)).2 (cell_has hrc)
      have hlb : (patchTree (pinfo 2 2 w h) ms k).lab (pxOf (patchEnv 4 2 2 w h ms) k rc)
          = patchLabels ms k (Flood.idx (pinfo 2 2 w h k).width rc.2 rc.1) := by
        show labelOf _ (Flood.idx _ (rc.2 + (pinfo 2 2 w h k).left - (pinfo 2 2 w h k).left)
          (rc.1 + (pinfo 2 2 w h k).top - (pinfo 2 2 w h k).top)) = _
        rw [Nat.add_sub_cancel, Nat.add_sub_cancel]
        rfl
      show ((Connect.chase W.F fuel (some (patchOf 2 2 w h _, (patchTree (pinfo 2 2 w h) ms (patchOf 2 2 w h _)).lab _))).getD
        none).getD _ = x
      rw [toForest_ofForest] at hres
      rw [hpo, hlb, Connect.chase_res hres (le_trans hj hm)]
      rfl
    show Res _ j _ ((mergedTree 4 2 2 w h ms fuel W).lab (pxOf (patchEnv 4 2 2 w h ms) k rc))
    rw [hx]
    refine res_keep (isReg := isPatchReg 4 ms) (fun r hr q hq => hst0.par_reg r hr q hq) (fun r hr => ?_)
      (fun r hr => recognizeAccel_parent e2 hr) hisreg hres
    rw [(hR v).merged r hr, hO.shows_.merged r hr]
  · intro p hp
    have hlt := patchOf_lt (hp := 2) (vp := 2) (by decide) (by decide) hp
    have hhas := (patchOf_eq (hp := 2) (vp := 2) (by decide) (by decide) hp hlt).1 rfl
    generalize patchOf 2 2 w h p = k at hlt hhas
    unfold PInfo.Has at hhas
    refine ⟨k, hlt, (p.2 - (pinfo 2 2 w h k).top, p.1 - (pinfo 2 2 w h k).left), mem_scan.2 ?_, ?_⟩
    · show p.2 - (pinfo 2 2 w h k).top < (pinfo 2 2 w h k).height ∧ p.1 - (pinfo 2 2 w h k).left < (pinfo 2 2 w h k).width
      omega
    · show (p.1 - (pinfo 2 2 w h k).left + (pinfo 2 2 w h k).left, p.2 - (pinfo 2 2 w h k).top + (pinfo 2 2 w h k).top) = p
      rw [Nat.sub_add_cancel hhas.1, Nat.sub_add_cancel hhas.2.2.1]
  · intro k k' hk hk' rc hrc rc' hrc' e
    have h1 := (patchOf_eq (hp := 2) (vp := 2) (by decide) (by decide) (cell_pixel (ms := ms) hk hrc) (by omega)).2 (cell_has hrc)
    have h2 := (patchOf_eq (hp := 2) (vp := 2) (by decide) (by decide) (cell_pixel (ms := ms) hk' hrc') (by omega)).2 (cell_has hrc')
    rw [e, h2] at h1
    subst h1
    refine ⟨rfl, ?_⟩
    have h3 : rc.2 + (pinfo 2 2 w h k').left = rc'.2 + (pinfo 2 2 w h k').left := (Prod.mk.inj e).1
    have h4 : rc.1 + (pinfo 2 2 w h k').top = rc'.1 + (pinfo 2 2 w h k').top := (Prod.mk.inj e).2
    exact Prod.ext (by omega) (by omega)
  · intro k hk
    have := pinfo_inside (hp := 2) (vp := 2) (w := w) (h := h) (by decide) (k := k) (by omega)
    show (pinfo 2 2 w h k).left + (pinfo 2 2 w h k).width ≤ 65535
    omega

/-- The points `D` are, each once, the pixels of one connected component of `{g ≤ lev}`, and one of them has
gray value `lev`. -/
def IsComponentAt (w h : Nat) (g : Nat × Nat → Nat) (lev : Nat) (D : List (Int × Int)) : Prop :=
  D.Nodup ∧ ∃ p₀ ∈ pixels w h, g p₀ = lev ∧
    ∀ pt, pt ∈ D ↔ ∃ p ∈ pixels w h, LConn (Adj4 w h) g lev p₀ p ∧ pt = ((p.1 : Int), (p.2 : Int))

theorem Handover.extractPixel {E : Env} {label : Nat → Nat → Nat} {px : Finset (Nat × Nat)}
    {T : RegionTree (Nat × Nat) Reg} {m : Nat} {out : Recognized Reg}
    (H : Handover E label px T m out) {fuel : Nat} (hf : 257 * (m + 1) + 1 ≤ fuel) (gm : Nat)
    (thr : Int) (heap0 : Reg → Option Int) (jk : Int × Int × Int) (junk : Reg → Nat) :
    ∃ X P, extractPixel E thr gm fuel label heap0 jk (ofRecognized out.R junk) out.reported = some X ∧
      P.Ok ∧ Delivered P (ofRecognized out.R junk) out.reported jk X ∧ P.N = out.reported.length ∧
      (∀ i, i < P.N → (P.list i).Nodup) ∧
      (∀ i (hi : i < out.reported.length), (P.list i).length = T.size out.reported[i] ∧
        (P.full i).length = T.size out.reported[i] ∧
        ∀ pt, pt ∈ P.list i ↔ ∃ p ∈ px, T.Under out.reported[i] p ∧ pt = toPt p) ∧
      (∀ k i, ∀ pt ∈ P.own k i, ∃ rc ∈ scan (E.pi k).width (E.pi k).height, pt = toPt (pxOf E k rc)) ∧
      (∀ i, i < out.reported.length → ∃ k, k < 4 ∧ P.own k i ≠ []) := by
  by_cases h0 : out.reported.length = 0
  · refine ⟨⟨0, fun _ => Mser.fresh, fun _ => none, 0⟩, ⟨0, fun _ => none, fun _ => true, fun _ _ => []⟩,
      by simp [Extract.extractPixel, h0], ⟨fun i j h => absurd h (Nat.not_lt_zero _), fun i j h => absurd h (Nat.not_lt_zero _)⟩,
      ⟨rfl, rfl, ⟨fun i h => absurd h (Nat.not_lt_zero _), fun i h => absurd h (Nat.not_lt_zero _)⟩,
        ⟨fun i h => absurd h (Nat.not_lt_zero _), fun i h => absurd h (Nat.not_lt_zero _),
          fun i h => absurd h (Nat.not_lt_zero _)⟩, fun i h => absurd h (Nat.not_lt_zero _), fun i h => by omega,
          fun i h => absurd h (Nat.not_lt_zero _)⟩, h0.symm, fun i h => absurd h (Nat.not_lt_zero _), fun i h => by omega,
      fun k i pt h => absurd h (by simp), fun i h => by omega⟩
  · obtain ⟨X, P, e, h1, h2, h3, h4, h5⟩ := H.extract hf gm thr heap0 jk junk
    exact ⟨X, P, by simp only [Extract.extractPixel, if_neg h0, e], h1, h2, h3, fun i _ => h4 i, h5⟩

/-- The whole way from a flooded image to the delivered pixels, with four threads: joining, recognition,
extraction. `v`, `heap0`, `jk`, `junk` are what uninitialised memory contains. -/
structure Pipeline (w h gm fuel fuel' : Nat) (ms : Nat → MSt) (cfg : Cfg)
    (msize exceed : Nat) (v : Nat × Nat → ℚ) (thr : Int) (heap0 : Reg → Option Int) (jk : Int × Int × Int)
    (junk : Reg → Nat) (W : World (Nat × Nat)) (out : Recognized (Nat × Nat)) (X : Extracted) : Prop where
  joined : mergeTrees 4 2 2 w h ms fuel 512 = some W
  recognized : recognizeAccel cfg Prod.fst fuel 4
    (fun k => (pinfo 2 2 w h k).width * (pinfo 2 2 w h k).height + 257) (patchRegs ms) msize exceed
    (ofForest W.F v) = some out
  extracted : extractPixel (patchEnv 4 2 2 w h ms) thr gm fuel' (patchLabels ms) heap0 jk
    (ofRecognized out.R junk) out.reported = some X

/-- What the image, the sizes and the configuration must satisfy; `fuel` bounds the lengths of chains. -/
structure Suitable (w h : Nat) (img : Nat → Nat → Nat) (gm fuel fuel' : Nat) (ms : Nat → MSt) (cfg : Cfg) : Prop where
  flooded : PatchTrees 4 2 2 w h img gm ms
  narrow : w ≤ 65535
  r32 : Rounding cfg.r32
  r64 : Rounding cfg.r64
  stable : -1 ≤ cfg.stable
  chains : 512 * joinCount 4 2 2 w h ≤ fuel
  chains' : 257 * (fuel + 1) + 1 ≤ fuel'

variable {thr : Int} {fuel' : Nat} {heap0 : Reg → Option Int} {jk : Int × Int × Int} {junk : Reg → Nat}
  {v : Nat × Nat → ℚ} {W : World (Nat × Nat)} {out : Recognized (Nat × Nat)} {X : Extracted}

/-- **C25** (run) Joining, recognition and extraction run to the end without an invalid access, whatever
uninitialised memory contains. -/
theorem C25_runs (hS : Suitable w h img gm fuel fuel' ms cfg)
    (v : Nat × Nat → ℚ) (thr : Int) (heap0 : Reg → Option Int) (jk : Int × Int × Int) (junk : Reg → Nat) :
    ∃ W out X, Pipeline w h gm fuel fuel' ms cfg msize exceed v thr heap0 jk junk W out X := by
  obtain ⟨W, out, arr, gs, m, e1, hC, e2, hr, hm, H⟩ := handover (msize := msize) (exceed := exceed) hS.flooded hS.chains
    hS.narrow v hS.r32 hS.r64 hS.stable
  obtain ⟨X, P, e3, _⟩ := Handover.extractPixel H (fuel := fuel') (by have := hS.chains'; omega) gm thr heap0 jk junk
  exact ⟨W, out, X, e1, e2, e3⟩

/-- What is known after a run. -/
theorem pipeline_spec (hS : Suitable w h img gm fuel fuel' ms cfg)
    (hX : Pipeline w h gm fuel fuel' ms cfg msize exceed v thr heap0 jk junk W out X) :
    IsComponentTree (Adj4 w h) (fun p => img p.1 p.2 ^^^ gm) (pixels w h) (mergedTree 4 2 2 w h ms fuel W) ∧
    (∃ arr gs, Result (mergedTree 4 2 2 w h ms fuel W) cfg
      (Selected (mergedTree 4 2 2 w h ms fuel W) (limits cfg)) out arr gs) ∧
    (∀ r, (out.R r).gray = (mergedTree 4 2 2 w h ms fuel W).gray r) ∧
    ∃ P : Plan, P.Ok ∧ Delivered P (ofRecognized out.R junk) out.reported jk X ∧ P.N = out.reported.length ∧
      (∀ i, i < P.N → (P.list i).Nodup) ∧
      (∀ i (hi : i < out.reported.length),
        (P.list i).length = (mergedTree 4 2 2 w h ms fuel W).size out.reported[i] ∧
        (P.full i).length = (mergedTree 4 2 2 w h ms fuel W).size out.reported[i] ∧
        ∀ pt, pt ∈ P.list i ↔ ∃ p ∈ pixels w h, (mergedTree 4 2 2 w h ms fuel W).Under out.reported[i] p ∧
          pt = toPt p) ∧
      (∀ k i, k < 4 → ∀ pt ∈ P.own k i, ∃ p ∈ pixels w h, (pinfo 2 2 w h k).Has p ∧ pt = toPt p) ∧
      (∀ i, i < out.reported.length → ∃ k, k < 4 ∧ P.own k i ≠ []) := by
  obtain ⟨W', out', arr, gs, m, e1, hC, e2, hr, hm, H⟩ := handover (msize := msize) (exceed := exceed) hS.flooded hS.chains
    hS.narrow v hS.r32 hS.r64 hS.stable
  rw [hX.joined] at e1
  obtain rfl := Option.some.inj e1
  rw [hX.recognized] at e2
  obtain rfl := Option.some.inj e2
  obtain ⟨X', P, e3, h1, h2, h3, h4, h5, h6, h7⟩ := Handover.extractPixel H (fuel := fuel') (by have := hS.chains'; omega) gm thr heap0 jk junk
  rw [hX.extracted] at e3
  obtain rfl := Option.some.inj e3
  refine ⟨hC, ⟨arr, gs, hr⟩, H.shows_.gray, P, h1, h2, h3, h4, h5, fun k i hk pt hpt => ?_, h7⟩
  obtain ⟨rc, hrc, e⟩ := h6 k i pt hpt
  exact ⟨_, cell_pixel hk hrc, cell_has hrc, e⟩

/-- **C25** There is a record for every reported region, and reading its points back yields every pixel of the
region once and nothing else. -/
theorem C25_points (hS : Suitable w h img gm fuel fuel' ms cfg)
    (hX : Pipeline w h gm fuel fuel' ms cfg msize exceed v thr heap0 jk junk W out X) :
    IsComponentTree (Adj4 w h) (fun p => img p.1 p.2 ^^^ gm) (pixels w h) (mergedTree 4 2 2 w h ms fuel W) ∧
    (∃ arr gs, Result (mergedTree 4 2 2 w h ms fuel W) cfg
      (Selected (mergedTree 4 2 2 w h ms fuel W) (limits cfg)) out arr gs) ∧
    X.count = out.reported.length ∧
    ∀ i (hi : i < out.reported.length), ∃ D, points X i = some D ∧ D.Nodup ∧ (X.ms i).size = D.length ∧
      ∀ pt, pt ∈ D ↔ ∃ p ∈ pixels w h, (mergedTree 4 2 2 w h ms fuel W).Under out.reported[i] p ∧
        pt = ((p.1 : Int), (p.2 : Int)) := by
  obtain ⟨hC, hr, _, P, ok, D, hN, hnd, hl, _⟩ := pipeline_spec hS hX
  refine ⟨hC, hr, by rw [D.count, hN], fun i hi => ?_⟩
  have hi' : i < P.N := by rw [hN]; exact hi
  obtain ⟨L, h1, h2⟩ := points_spec ok D.count D.memSize D.ms D.done hi'
  rw [← Plan.list_eq] at h2
  obtain ⟨h3, h4, h5⟩ := hl i hi
  refine ⟨L, h1, h2.nodup_iff.2 (hnd i hi'), ?_, fun pt => ?_⟩
  · rw [D.size i hi', h4, ← h3, h2.length_eq]
  · rw [h2.mem_iff, h5]; rfl

/-- **C25** The same without reference to the tree: the points of every record are one connected component of
the pixels up to some level, and that level occurs in it. -/
theorem C25_points_are_component (hS : Suitable w h img gm fuel fuel' ms cfg)
    (hX : Pipeline w h gm fuel fuel' ms cfg msize exceed v thr heap0 jk junk W out X) :
    ∀ i, i < X.count → ∃ D lev, points X i = some D ∧ (X.ms i).size = D.length ∧
      IsComponentAt w h (fun p => img p.1 p.2 ^^^ gm) lev D := by
  obtain ⟨hC, ⟨arr, gs, hr⟩, hc, hp⟩ := C25_points hS hX
  intro i hi
  rw [hc] at hi
  obtain ⟨D, h1, h2, h3, h4⟩ := hp i hi
  have hlive : (mergedTree 4 2 2 w h ms fuel W).isReg out.reported[i] :=
    ((hr.mem _).1 (hr.sub _ (List.getElem_mem hi))).1
  obtain ⟨p₀, hp₀, hl⟩ := hC.reg_lab _ hlive
  have hu : (mergedTree 4 2 2 w h ms fuel W).Under out.reported[i] p₀ := by
    rw [← hl]; exact Relation.ReflTransGen.refl
  refine ⟨D, (mergedTree 4 2 2 w h ms fuel W).gray out.reported[i], h1, h3, h2, p₀, hp₀, ?_, fun pt => ?_⟩
  · exact (hC.lab_gray p₀ hp₀).symm.trans (by rw [hl])
  · rw [h4]
    constructor
    · rintro ⟨p, hp, hu', e⟩; exact ⟨p, hp, (hC.comp _ hlive p₀ hp₀ hu p hp).1 hu', e⟩
    · rintro ⟨p, hp, hu', e⟩; exact ⟨p, hp, (hC.comp _ hlive p₀ hp₀ hu p hp).2 hu', e⟩

/-! ### C26: the buffer -/

/-- The parts of the point array which belong to record `i`, read from the array: the four index ranges, for
`Memory_Type_Recursive_Parallel_4` the table of the records contained in it, and the four ranges of points. A
part is given by its first point and the point after its last. -/
def partsOf (X : Extracted) (i : Nat) : Option (List (Int × Int)) :=
  let p := (X.ms i).points
  let range := fun k : Nat =>
    (rd X.memSize X.mem (2 * (p + k))).bind fun x =>
    (rd X.memSize X.mem (2 * (p + k) + 1)).bind fun y => some (p + x, p + y)
  (match (X.ms i).mtype with
    | .share4 => some (p, p + 4)
    | .recursive4 => (rd X.memSize X.mem (2 * (p + 4))).bind fun c => some (p, p + 4 + (2 + c) / 2)
    | .self => none).bind fun head =>
  (range 0).bind fun r0 => (range 1).bind fun r1 => (range 2).bind fun r2 => (range 3).bind fun r3 =>
    some [head, r0, r1, r2, r3]

/-- The parts of a plan. -/
def planParts (P : Plan) (i : Nat) : List (Int × Int) :=
  [((P.off i : Int), (P.off i : Int) + 4 + P.ci i), ((P.sec 0 i : Int), (P.sec 0 i : Int) + P.cap 0 i),
    ((P.sec 1 i : Int), (P.sec 1 i : Int) + P.cap 1 i), ((P.sec 2 i : Int), (P.sec 2 i : Int) + P.cap 2 i),
    ((P.sec 3 i : Int), (P.sec 3 i : Int) + P.cap 3 i)]

theorem seg_len {P : Plan} (ok : P.Ok) {i k : Nat} (hi : i < P.N) : (P.seg P.N k i).length = P.cap k i := by
  simp only [Plan.seg, Plan.cap, Plan.ch]
  rw [Plan.accs_up ok (Nat.le_of_lt hi) (Nat.le_refl _)]
  by_cases hk : k = 0
  · subst hk
    cases P.sh i <;> simp
  · simp [hk]

theorem parts_eq {P : Plan} (ok : P.Ok) {jk : Int × Int × Int} {X0 : XForest} {arr : List Reg} {X : Extracted}
    (D : Delivered P X0 arr jk X) {i : Nat} (hi : i < P.N) : partsOf X i = some (planParts P i) := by
  have hp := D.ms.points i hi
  have hd : P.rel P.N i = P.off i := by simp [Plan.rel, hi]
  have hsz := P.head_size hi
  have hrange : ∀ k : Nat, k < 4 → ((rd X.memSize X.mem (2 * ((P.off i : Int) + k))).bind fun x =>
      (rd X.memSize X.mem (2 * ((P.off i : Int) + k) + 1)).bind fun y => some ((P.off i : Int) + x, (P.off i : Int) + y))
      = some ((P.sec k i : Int), (P.sec k i : Int) + P.cap k i) := by
    intro k hk
    obtain ⟨a, b⟩ := D.done.head i hi k hk
    rw [hd] at a b
    rw [D.memSize, rd_eq (by omega) (by omega) a]
    simp only [Option.bind_some]
    rw [rd_eq (by omega) (by omega) b]
    simp only [Option.bind_some, Option.some.injEq, Prod.mk.injEq, seg_len ok hi]
    omega
  have h0 := hrange 0 (by decide)
  have h1 := hrange 1 (by decide)
  have h2 := hrange 2 (by decide)
  have h3 := hrange 3 (by decide)
  have hm := D.ms.mtype i hi
  simp only [partsOf, hp, h0, h1, h2, h3, Option.bind_some]
  cases hs : P.sh i with
  | true =>
    simp only [hs, if_true] at hm
    simp only [hm, Option.bind_some, planParts, Plan.ci, hs, if_true]
    simp
  | false =>
    simp only [hs, Bool.false_eq_true, if_false] at hm
    have hc : P.ci i = (2 + (P.kids i i).length) / 2 := by simp [Plan.ci, hs]
    have ht := (D.done.table i hi hs).1
    rw [Plan.kids_up ok (Nat.le_of_lt hi) (Nat.le_refl _)] at ht
    rw [D.memSize, hm]
    dsimp only
    rw [rd_eq (by omega) (by omega) ht]
    simp only [Option.bind_some, planParts, hc]
    push_cast
    rfl

/-- The part of a plan which contains point `a`. -/
theorem parts_cover {P : Plan} {a : Nat} (ha : a < P.size) :
    ∃ i, i < P.N ∧ ∃ r ∈ planParts P i, r.1 ≤ (a : Int) ∧ (a : Int) < r.2 := by
  have hoff : ∀ n, a < P.off n → ∃ i, i < n ∧ P.off i ≤ a ∧ a < P.off i + P.blk i := by
    intro n
    induction n with
    | zero => intro h; simp [Plan.off] at h
    | succ n ih =>
      intro h
      by_cases h' : a < P.off n
      · obtain ⟨i, h1, h2⟩ := ih h'; exact ⟨i, by omega, h2⟩
      · simp only [Plan.off] at h; exact ⟨n, by omega, by omega, h⟩
  have hcum : ∀ k b n, b < P.cum k n → ∃ i, i < n ∧ P.cum k i ≤ b ∧ b < P.cum k i + (P.own k i).length := by
    intro k b n
    induction n with
    | zero => intro h; simp [Plan.cum] at h
    | succ n ih =>
      intro h
      by_cases h' : b < P.cum k n
      · obtain ⟨i, h1, h2⟩ := ih h'; exact ⟨i, by omega, h2⟩
      · simp only [Plan.cum] at h; exact ⟨n, by omega, by omega, h⟩
  have hcap : ∀ k i, k ≠ 0 → P.cap k i = (P.own k i).length := fun k i hk => by simp [Plan.cap, hk]
  have hb1 : P.base 1 = P.off P.N := by simp [Plan.base]
  have hb2 : P.base 2 = P.off P.N + P.cum 1 P.N := by simp [Plan.base]
  have hb3 : P.base 3 = P.off P.N + P.cum 1 P.N + P.cum 2 P.N := by simp [Plan.base]
  have hsec : ∀ k i, k ≠ 0 → P.sec k i = P.base k + P.cum k i := fun k i hk => by simp [Plan.sec, hk]
  unfold Plan.size at ha
  by_cases h0 : a < P.off P.N
  · obtain ⟨i, hi, h1, h2⟩ := hoff _ h0
    refine ⟨i, hi, ?_⟩
    have hb : P.blk i = 4 + P.ci i + P.cap 0 i := rfl
    have hs : P.sec 0 i = P.off i + 4 + P.ci i := by simp [Plan.sec]
    by_cases h3 : a < P.off i + 4 + P.ci i
    · exact ⟨_, List.mem_cons_self, by dsimp only; omega, by dsimp only; omega⟩
    · exact ⟨_, List.mem_cons_of_mem _ List.mem_cons_self, by dsimp only; omega, by dsimp only; omega⟩
  · by_cases h1 : a < P.off P.N + P.cum 1 P.N
    · obtain ⟨i, hi, h2, h3⟩ := hcum 1 (a - P.off P.N) P.N (by omega)
      refine ⟨i, hi, ((P.sec 1 i : Int), (P.sec 1 i : Int) + P.cap 1 i), by simp [planParts], ?_⟩
      rw [hsec 1 i (by decide), hcap 1 i (by decide), hb1]; dsimp only; omega
    · by_cases h4 : a < P.off P.N + P.cum 1 P.N + P.cum 2 P.N
      · obtain ⟨i, hi, h2, h3⟩ := hcum 2 (a - P.off P.N - P.cum 1 P.N) P.N (by omega)
        refine ⟨i, hi, ((P.sec 2 i : Int), (P.sec 2 i : Int) + P.cap 2 i), by simp [planParts], ?_⟩
        rw [hsec 2 i (by decide), hcap 2 i (by decide), hb2]; dsimp only; omega
      · obtain ⟨i, hi, h2, h3⟩ := hcum 3 (a - P.off P.N - P.cum 1 P.N - P.cum 2 P.N) P.N (by omega)
        refine ⟨i, hi, ((P.sec 3 i : Int), (P.sec 3 i : Int) + P.cap 3 i), by simp [planParts], ?_⟩
        rw [hsec 3 i (by decide), hcap 3 i (by decide), hb3]; dsimp only; omega

/-- **C26** No part leaves the array, no two parts share a point, and together they make up the whole array. -/
theorem C26_parts (hS : Suitable w h img gm fuel fuel' ms cfg)
    (hX : Pipeline w h gm fuel fuel' ms cfg msize exceed v thr heap0 jk junk W out X) :
    ∃ parts : Nat → List (Int × Int), (∀ i, i < X.count → partsOf X i = some (parts i)) ∧
      (∀ i, i < X.count → ∀ r ∈ parts i, 0 ≤ r.1 ∧ r.1 ≤ r.2 ∧ r.2 ≤ X.memSize) ∧
      ((List.range X.count).flatMap parts).Pairwise (fun r s => r.2 ≤ s.1 ∨ s.2 ≤ r.1) ∧
      ∀ a : Int, 0 ≤ a → a < X.memSize → ∃ i, i < X.count ∧ ∃ r ∈ parts i, r.1 ≤ a ∧ a < r.2 := by
  obtain ⟨_, _, _, P, ok, D, _⟩ := pipeline_spec hS hX
  rw [D.count, D.memSize]
  have hpos : ∀ r ∈ (List.range P.N).flatMap (planParts P), r.1 ≤ r.2 := by
    intro r hr
    obtain ⟨i, _, hr⟩ := List.mem_flatMap.1 hr
    simp only [planParts, List.mem_cons, List.not_mem_nil, or_false] at hr
    rcases hr with rfl | rfl | rfl | rfl | rfl <;> dsimp only <;> omega
  refine ⟨planParts P, fun i hi => parts_eq ok D hi, fun i hi r hr => ?_, ?_, fun a h0 h1 => ?_⟩
  · have e0 := P.head_size hi
    have e1 := P.sec_lt hi (k := 0) (by decide)
    have e2 := P.sec_lt hi (k := 1) (by decide)
    have e3 := P.sec_lt hi (k := 2) (by decide)
    have e4 := P.sec_lt hi (k := 3) (by decide)
    simp only [planParts, List.mem_cons, List.not_mem_nil, or_false] at hr
    rcases hr with rfl | rfl | rfl | rfl | rfl <;> dsimp only <;> omega
  · have hss : ∀ {i j k l : Nat}, i < P.N → j < P.N → k < 4 → l < 4 → ¬ (k = l ∧ i = j) →
        ((P.sec k i : Int) + P.cap k i ≤ P.sec l j ∨ (P.sec l j : Int) + P.cap l j ≤ P.sec k i) := by
      intro i j k l hi hj hk hl h
      have := P.sec_sec hi hj hk hl h; omega
    have hhs : ∀ {i j k : Nat}, i < P.N → j < P.N →
        ((P.off i : Int) + 4 + P.ci i ≤ P.sec k j ∨ (P.sec k j : Int) + P.cap k j ≤ P.off i) := by
      intro i j k hi hj
      have := P.head_sec (k := k) hi hj; omega
    rw [List.pairwise_flatMap]
    constructor
    · intro i hi
      have hi := List.mem_range.1 hi
      simp only [planParts, List.pairwise_cons, List.mem_cons, List.not_mem_nil, or_false, forall_eq_or_imp, forall_eq,
        List.Pairwise.nil, and_true, false_imp_iff, implies_true]
      exact ⟨⟨hhs hi hi, hhs hi hi, hhs hi hi, hhs hi hi⟩,
        ⟨hss hi hi (by decide) (by decide) (fun e => absurd e.1 (by decide)), hss hi hi (by decide) (by decide) (fun e => absurd e.1 (by decide)),
          hss hi hi (by decide) (by decide) (fun e => absurd e.1 (by decide))⟩,
        ⟨hss hi hi (by decide) (by decide) (fun e => absurd e.1 (by decide)), hss hi hi (by decide) (by decide) (fun e => absurd e.1 (by decide))⟩,
        hss hi hi (by decide) (by decide) (fun e => absurd e.1 (by decide))⟩
    · refine List.Nodup.pairwise_of_forall_ne List.nodup_range fun i hi j hj hne r hr s hs => ?_
      have hi := List.mem_range.1 hi
      have hj := List.mem_range.1 hj
      have hform : ∀ {i : Nat} {r : Int × Int}, r ∈ planParts P i →
          r = ((P.off i : Int), (P.off i : Int) + 4 + P.ci i) ∨
            ∃ k : Nat, k < 4 ∧ r = ((P.sec k i : Int), (P.sec k i : Int) + P.cap k i) := by
        intro i r hr
        simp only [planParts, List.mem_cons, List.not_mem_nil, or_false] at hr
        rcases hr with h | h | h | h | h
        · exact .inl h
        · exact .inr ⟨0, by decide, h⟩
        · exact .inr ⟨1, by decide, h⟩
        · exact .inr ⟨2, by decide, h⟩
        · exact .inr ⟨3, by decide, h⟩
      rcases hform hr with rfl | ⟨k, hk, rfl⟩ <;> rcases hform hs with rfl | ⟨l, hl, rfl⟩ <;> dsimp only
      · have := P.head_head hne; omega
      · exact hhs hi hj
      · exact (hhs hj hi).symm
      · exact hss hi hj hk hl (fun e => hne e.2)
  · obtain ⟨i, h2, r, h3, h4⟩ := parts_cover (P := P) (a := a.toNat) (by omega)
    refine ⟨i, h2, r, h3, ?_⟩
    rwa [Int.toNat_of_nonneg h0] at h4

/-! ### C27: the rectangles -/

/-- `R` is the smallest rectangle with all points of `D`: it contains them, and each side touches one. -/
structure IsBoundingBox (D : List (Int × Int)) (R : Rect) : Prop where
  inside : ∀ p ∈ D, R.left ≤ p.1 ∧ p.1 < R.left + R.width ∧ R.top ≤ p.2 ∧ p.2 < R.top + R.height
  left : ∃ p ∈ D, p.1 = R.left
  top : ∃ p ∈ D, p.2 = R.top
  right : ∃ p ∈ D, p.1 = R.left + R.width - 1
  bottom : ∃ p ∈ D, p.2 = R.top + R.height - 1

theorem rect_spec (hS : Suitable w h img gm fuel fuel' ms cfg)
    (hX : Pipeline w h gm fuel fuel' ms cfg msize exceed v thr heap0 jk junk W out X)
    (hw : w ≤ 32768) (hh : h ≤ 32768) {i : Nat} (hi : i < X.count) (ex : Prop)
    (hex : ∀ D, points X i = some D → ex → ∃ k, k < 4 ∧ ∀ p ∈ pixels w h, ((p.1 : Int), (p.2 : Int)) ∈ D → (pinfo 2 2 w h k).Has p) :
    ∃ D, points X i = some D ∧ RBox ex (X.ms i).rect (· ∈ D) := by
  obtain ⟨hC, hr, _, P, ok, D, hN, hnd, hl, hown, hne⟩ := pipeline_spec hS hX
  have hi' : i < P.N := by rw [← D.count]; exact hi
  obtain ⟨L, h1, h2⟩ := points_spec ok D.count D.memSize D.ms D.done hi'
  rw [← Plan.list_eq] at h2
  refine ⟨L, h1, ?_⟩
  have hblock : ∀ c k, k < 4 → BlockBox (boxOf P jk k c) (P.own k c) := by
    intro c k hk
    refine block_box (fun pt hpt => ?_) jk
    obtain ⟨p, hp, _, rfl⟩ := hown k c hk pt hpt
    rw [mem_pixels] at hp
    show (0 ≤ (p.1 : Int) ∧ (p.1 : Int) < 32768) ∧ (0 ≤ (p.2 : Int) ∧ (p.2 : Int) < 32768)
    omega
  have hall : ∀ {c : Nat} {pt : Pt}, pt ∈ P.all c ↔ ∃ k, k < 4 ∧ pt ∈ P.own k c := by
    intro c pt
    simp only [Plan.all, List.mem_append]
    constructor
    · rintro (((h | h) | h) | h)
      · exact ⟨0, by decide, h⟩
      · exact ⟨1, by decide, h⟩
      · exact ⟨2, by decide, h⟩
      · exact ⟨3, by decide, h⟩
    · rintro ⟨k, hk, h⟩
      have : k = 0 ∨ k = 1 ∨ k = 2 ∨ k = 3 := by omega
      rcases this with rfl | rfl | rfl | rfl <;> simp [h]
  let I : Nat → Prop := fun c => Relation.ReflTransGen (fun a b => P.up a = some b) c i
  have hsub : ∀ c, c < P.N → I c → ∀ pt ∈ P.all c, pt ∈ L := by
    intro c hc hIc pt hpt
    rw [h2.mem_iff, Plan.list, List.mem_flatMap]
    refine ⟨c, ?_, hpt⟩
    rw [List.mem_append, List.mem_singleton]
    exact (Plan.mem_descs ok hi').2 ⟨hc, hIc⟩
  have := rects_final (ex := ex) ok (I := I) (own := ownRect (boxOf P jk))
    (fun c j hu hj => Relation.ReflTransGen.head hu hj) (fun c hc hIc => ?_) hi' Relation.ReflTransGen.refl
  · rw [← D.rect i hi'] at this
    exact BBox.congr this fun p => h2.mem_iff.symm
  · refine own_rbox (own := fun k => P.own k c) (hblock c) (hne c (by omega)) fun e => ?_
    obtain ⟨k0, hk0, hk⟩ := hex L h1 e
    refine ⟨k0, fun k hk4 hkne => ?_⟩
    rw [List.eq_nil_iff_forall_not_mem]
    intro pt hpt
    obtain ⟨p, hp, hhas, rfl⟩ := hown k c hk4 pt hpt
    have hhas' := hk p hp (hsub c hc hIc _ (hall.2 ⟨k, hk4, hpt⟩))
    have e1 := (patchOf_eq (hp := 2) (vp := 2) (by decide) (by decide) hp (by omega)).2 hhas
    have e2 := (patchOf_eq (hp := 2) (vp := 2) (by decide) (by decide) hp (by omega)).2 hhas'
    exact hkne (e1.symm.trans e2)

/-- **C27** (what holds for every region, image sides at most 32768) The left and the top side are exact: no point
lies left of or above the rectangle and both sides touch a point. The right and the bottom side touch a point, so the
rectangle is never too large. (Violated: the right and bottom sides may be too small, see `C27_false`.) -/
theorem C27_left_top_partial (hS : Suitable w h img gm fuel fuel' ms cfg)
    (hX : Pipeline w h gm fuel fuel' ms cfg msize exceed v thr heap0 jk junk W out X)
    (hw : w ≤ 32768) (hh : h ≤ 32768) {i : Nat} (hi : i < X.count) :
    ∃ D, points X i = some D ∧ (∀ p ∈ D, (X.ms i).rect.left ≤ p.1 ∧ (X.ms i).rect.top ≤ p.2) ∧
      (∃ p ∈ D, p.1 = (X.ms i).rect.left) ∧ (∃ p ∈ D, p.2 = (X.ms i).rect.top) ∧
      (∃ p ∈ D, p.1 = (X.ms i).rect.left + (X.ms i).rect.width - 1) ∧
      (∃ p ∈ D, p.2 = (X.ms i).rect.top + (X.ms i).rect.height - 1) := by
  obtain ⟨D, h1, h2⟩ := rect_spec hS hX hw hh hi False (fun _ _ h => h.elim)
  exact ⟨D, h1, h2.lower, h2.left, h2.top, h2.right, h2.bottom⟩

/-- **C27** (what holds) If all pixels of a region lie in one patch, its rectangle is the bounding box. -/
theorem C27_one_patch_partial (hS : Suitable w h img gm fuel fuel' ms cfg)
    (hX : Pipeline w h gm fuel fuel' ms cfg msize exceed v thr heap0 jk junk W out X)
    (hw : w ≤ 32768) (hh : h ≤ 32768) {i : Nat} (hi : i < X.count)
    (hone : ∀ D, points X i = some D → ∃ k, k < 4 ∧ ∀ p ∈ pixels w h, ((p.1 : Int), (p.2 : Int)) ∈ D →
      (pinfo 2 2 w h k).Has p) : ∃ D, points X i = some D ∧ IsBoundingBox D (X.ms i).rect := by
  obtain ⟨D, h1, h2⟩ := rect_spec hS hX hw hh hi True (fun D hD _ => hone D hD)
  refine ⟨D, h1, fun p hp => ?_, h2.left, h2.top, h2.right, h2.bottom⟩
  have a := h2.lower p hp
  have b := h2.upper trivial p hp
  omega

/-! ### C28: the gray levels -/

/-- `lev` is the gray value of the source image at which the region with the points `D` was formed: the brightest
of a dark region, the darkest of a bright one. -/
structure SourceLevel (bright : Bool) (img : Nat → Nat → Nat) (D : List (Int × Int)) (lev : Nat) : Prop where
  occurs : ∃ p : Nat × Nat, ((p.1 : Int), (p.2 : Int)) ∈ D ∧ img p.1 p.2 = lev
  extreme : ∀ p : Nat × Nat, ((p.1 : Int), (p.2 : Int)) ∈ D →
    if bright then lev ≤ img p.1 p.2 else img p.1 p.2 ≤ lev

theorem gray_spec (hS : Suitable w h img gm fuel fuel' ms cfg)
    (hX : Pipeline w h gm fuel fuel' ms cfg msize exceed v thr heap0 jk junk W out X) {i : Nat} (hi : i < X.count) :
    ∃ D, points X i = some D ∧ IsComponentAt w h (fun p => img p.1 p.2 ^^^ gm) (X.ms i).gray D := by
  obtain ⟨hC, ⟨arr, gs, hr⟩, hg, P, ok, D, hN, hnd, hl, _⟩ := pipeline_spec hS hX
  have hi' : i < P.N := by rw [← D.count]; exact hi
  have hi2 : i < out.reported.length := by rw [← hN]; exact hi'
  obtain ⟨L, h1, h2⟩ := points_spec ok D.count D.memSize D.ms D.done hi'
  rw [← Plan.list_eq] at h2
  obtain ⟨_, _, h4⟩ := hl i hi2
  have hlive : (mergedTree 4 2 2 w h ms fuel W).isReg out.reported[i] :=
    ((hr.mem _).1 (hr.sub _ (List.getElem_mem hi2))).1
  obtain ⟨p₀, hp₀, he⟩ := hC.reg_lab _ hlive
  have hu : (mergedTree 4 2 2 w h ms fuel W).Under out.reported[i] p₀ := by
    rw [← he]; exact Relation.ReflTransGen.refl
  have hgr : (X.ms i).gray = (mergedTree 4 2 2 w h ms fuel W).gray out.reported[i] :=
    (D.gray i hi2).trans (hg _)
  rw [hgr]
  refine ⟨L, h1, h2.nodup_iff.2 (hnd i hi'), p₀, hp₀, (hC.lab_gray p₀ hp₀).symm.trans (by rw [he]), fun pt => ?_⟩
  rw [h2.mem_iff, h4]
  constructor
  · rintro ⟨p, hp, hu', e⟩; exact ⟨p, hp, (hC.comp _ hlive p₀ hp₀ hu p hp).1 hu', e⟩
  · rintro ⟨p, hp, hu', e⟩; exact ⟨p, hp, (hC.comp _ hlive p₀ hp₀ hu p hp).2 hu', e⟩

theorem lconn_le {α : Type} {adj : α → α → Prop} {g : α → Nat} {l : Nat} {p q : α} (hp : g p ≤ l)
    (hc : LConn adj g l p q) : g q ≤ l := by
  rcases Relation.ReflTransGen.cases_tail hc with e | ⟨b, _, hb⟩
  · rw [e]; exact hp
  · exact hb.2.2

/-- The points of a record have gray values up to the level, and the level occurs. -/
theorem component_gray {g : Nat × Nat → Nat} {lev : Nat} {D : List (Int × Int)} (hD : IsComponentAt w h g lev D) :
    (∃ p ∈ pixels w h, ((p.1 : Int), (p.2 : Int)) ∈ D ∧ g p = lev) ∧
      ∀ p : Nat × Nat, ((p.1 : Int), (p.2 : Int)) ∈ D → p ∈ pixels w h ∧ g p ≤ lev := by
  obtain ⟨_, p₀, hp₀, he, hm⟩ := hD
  refine ⟨⟨p₀, hp₀, (hm _).2 ⟨p₀, hp₀, .refl, rfl⟩, he⟩, fun p hp => ?_⟩
  obtain ⟨q, hq, hc, e⟩ := (hm _).1 hp
  simp only [Prod.mk.injEq] at e
  have : p = q := Prod.ext (by exact_mod_cast e.1) (by exact_mod_cast e.2)
  subst this
  exact ⟨hq, lconn_le (by omega) hc⟩

/-- **C28** (what holds) For dark regions the reported gray level is the one at which the region was formed.
(Violated for bright regions, see `C28_bright_wrong` and `C28_false`.) -/
theorem C28_dark_partial (hS : Suitable w h img 0 fuel fuel' ms cfg)
    (hX : Pipeline w h 0 fuel fuel' ms cfg msize exceed v thr heap0 jk junk W out X) {i : Nat} (hi : i < X.count) :
    ∃ D, points X i = some D ∧ SourceLevel false img D (X.ms i).gray := by
  obtain ⟨D, h1, h2⟩ := gray_spec hS hX hi
  obtain ⟨⟨p, hp, hD, he⟩, ha⟩ := component_gray h2
  simp only [Nat.xor_zero] at he ha
  exact ⟨D, h1, ⟨⟨p, hD, he⟩, fun q hq => by simpa using (ha q hq).2⟩⟩

/-- **C28** (violated) The reported gray level of a bright region is wrong for every image and every region: it is
the complement of the level at which the region was formed, and no value is its own complement. -/
theorem C28_bright_wrong (hS : Suitable w h img 255 fuel fuel' ms cfg) (hI : ImageOK w h img 0)
    (hX : Pipeline w h 255 fuel fuel' ms cfg msize exceed v thr heap0 jk junk W out X) {i : Nat} (hi : i < X.count) :
    ∃ D, points X i = some D ∧ SourceLevel true img D (255 - (X.ms i).gray) ∧
      ¬ SourceLevel true img D (X.ms i).gray := by
  obtain ⟨D, h1, h2⟩ := gray_spec hS hX hi
  obtain ⟨⟨p, hp, hD, he⟩, ha⟩ := component_gray h2
  have hx : ∀ q ∈ pixels w h, img q.1 q.2 < 256 ∧ img q.1 q.2 ^^^ 255 = 255 - img q.1 q.2 := by
    intro q hq
    rw [mem_pixels] at hq
    have := hI.img_lt _ _ hq.1 hq.2
    exact ⟨this, FloodMem.xor_255 _ this⟩
  have hp1 := hx p hp
  rw [hp1.2] at he
  have hs : SourceLevel true img D (255 - (X.ms i).gray) := by
    refine ⟨⟨p, hD, by omega⟩, fun q hq => ?_⟩
    obtain ⟨h3, h4⟩ := ha q hq
    have := hx q h3
    rw [this.2] at h4
    simp only [if_true]; omega
  refine ⟨D, h1, hs, fun hn => ?_⟩
  obtain ⟨q, hq, e⟩ := hn.occurs
  obtain ⟨q', hq', e'⟩ := hs.occurs
  have a := hn.extreme q' hq'
  have b := hs.extreme q hq
  simp only [if_true] at a b
  omega

/-! ### C29: the number of threads -/

/-- **C29** (violated for one thread) With fewer than four patches extraction always accesses a patch that does not
exist, whatever the regions and pixels are. -/
theorem C29_few_threads_out_of_range {E : Env} {label : Nat → Nat → Nat} {X0 : XForest} {arr : List Reg}
    (hn : E.n < 4) (ha : arr ≠ []) : extractPixel E thr gm fuel label heap0 jk X0 arr = none := by
  have h0 : arr.length ≠ 0 := by simpa using ha
  have hb : ∀ {α β : Type} {a : Option α} {f : α → Option β}, (∀ x, f x = none) → a.bind f = none := by
    intro α β a f hf; cases a <;> simp [hf]
  have h3 : ∀ {β : Type} {N hp} {f : CountSt → Option β}, (countPatch E N hp label 3).bind f = none := by
    intro β N hp f; simp only [countPatch, if_neg (show ¬ 3 < E.n by omega)]; rfl
  rw [extractPixel, if_neg h0]
  exact hb fun s1 => hb fun s2 => hb fun s3 => hb fun c0 => hb fun c1 => hb fun c2 => h3

/-- **C29** (violated for 32 threads) Extraction reads nothing of the patches 4, 5, …: the result is the same
whatever regions their pixels belong to and wherever they lie. -/
theorem C29_further_patches_ignored {E E' : Env} {label label' : Nat → Nat → Nat} {X0 : XForest} {arr : List Reg}
    (hn : E.n = E'.n) (hr : E.nreg = E'.nreg) (hp : ∀ k, k < 4 → E.pi k = E'.pi k)
    (hl : ∀ k, k < 4 → label k = label' k) :
    extractPixel E thr gm fuel label heap0 jk X0 arr = extractPixel E' thr gm fuel label' heap0 jk X0 arr := by
  have e1 : markOne E gm = markOne E' gm := by
    funext s ri; simp only [markOne, hn, hr]
  have e2 : assignOne E = assignOne E' := by
    have : assignPath E = assignPath E' := by
      funext real v f
      induction f with
      | zero => funext s o; cases o <;> rfl
      | succ f ih =>
        funext s o
        cases o with
        | none => rfl
        | some r => simp only [assignPath, ih, hn, hr]
    funext f s r
    simp only [assignOne, this]
  have e3 : Extract.allRegs E = Extract.allRegs E' := by simp only [Extract.allRegs, hn, hr]
  have e4 : ∀ k, k < 4 → ∀ N hp, countPatch E N hp label k = countPatch E' N hp label' k := by
    intro k hk N hp'
    have : countOne E N hp' k (label k) = countOne E' N hp' k (label' k) := by
      funext s rc; simp only [countOne, hr, hp k hk, hl k hk]
    simp only [countPatch, this, hn, hp k hk]; rw [hl k hk]
  have e5 : ∀ k, k < 4 → ∀ M N link pos mem, fillPatch E M N link pos mem k jk = fillPatch E' M N link pos mem k jk := by
    intro k hk M N link pos mem
    have : fillOne E M N k (link k) = fillOne E' M N k (link k) := by
      funext s rc; simp only [fillOne, hp k hk]
    simp only [fillPatch, this, hn, hp k hk]
  have hb : ∀ {α β : Type} {a a' : Option α} {f f' : α → Option β}, a = a' → (∀ x, f x = f' x) →
      a.bind f = a'.bind f' := by
    intro α β a a' f f' h1 h2; rw [h1, funext h2]
  rw [extractPixel, extractPixel]
  split
  · rfl
  · exact hb (by rw [e1]) fun s1 => hb rfl fun s2 => hb (by rw [e2, e3]) fun s3 =>
      hb (e4 0 (by decide) _ _) fun c0 => hb (e4 1 (by decide) _ _) fun c1 => hb (e4 2 (by decide) _ _) fun c2 =>
      hb (e4 3 (by decide) _ _) fun c3 => hb rfl fun s4 =>
      hb (e5 0 (by decide) _ _ _ _ _) fun f0 => hb (e5 1 (by decide) _ _ _ _ _) fun f1 =>
      hb (e5 2 (by decide) _ _ _ _ _) fun f2 => hb (e5 3 (by decide) _ _ _ _ _) fun f3 => rfl

end Verif.Props
