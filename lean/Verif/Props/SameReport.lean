import Verif.Proof.GroupOrder
import Verif.Props.RecognizeV1

/-!
# Property C70: what is reported does not depend on the number of threads

Trees built with different numbers of threads are the same (C12, C64), and the same regions are selected (C21).  But
the candidates are listed in another order, and duplicate removal depends on the order.
-/

namespace Verif.Props

open Verif.Spec Verif.Recog Verif.Partition
open Verif.Connect (World)
open Verif.FloodMem (MSt)
open Verif.V1 (Point Mem MixedAdj mergeTreesV1)

variable {α ι ι' : Type}

/-- The pixels `S` are delivered as a region of gray level `g`. -/
def Delivered (px : Finset α) (T : RegionTree α ι) (reported : List ι) (S : Finset α) (g : Nat) : Prop :=
  ∃ r ∈ reported, T.gray r = g ∧ ∀ p, p ∈ S ↔ p ∈ px ∧ T.Under r p

/-- `above` among regions that exist. -/
def Above' (T : RegionTree α ι) (r a : ι) : Prop := T.isReg r ∧ T.isReg a ∧ T.Above r a

/-- A region can only be taken into the group of `r` if it has less than twice the size of `r`. -/
def Reach (T : RegionTree α ι) (r a : ι) : Prop := Above' T r a ∧ 25 * T.size a < 49 * T.size r

/-- Being near, with a threshold below 2/5, means to be larger by less than 2/5. -/
theorem near_lt {T : RegionTree α ι} {maxPoint : Int} {dup : ℚ} {rnd : ℚ → ℚ} {r a : ι} (h64 : Rounding rnd)
    (hd : dup < rnd (2 / 5)) (hpos : 0 < T.size r) (h : Near T maxPoint dup rnd r a) : 5 * T.size a < 7 * T.size r := by
  by_contra hn
  have hp : (0 : ℚ) < ((T.size r : Int) : ℚ) := by exact_mod_cast hpos
  have h1 : (2 / 5 : ℚ) ≤ (((T.size a : Int) - (T.size r : Int) : Int) : ℚ) / ((T.size r : Int) : ℚ) := by
    rw [le_div_iff₀ hp, div_mul_eq_mul_div, div_le_iff₀ (by norm_num)]
    have : (2 * (T.size r : Int)) ≤ ((T.size a : Int) - (T.size r : Int)) * 5 := by omega
    exact_mod_cast this
  exact absurd (lt_of_le_of_lt (le_trans (h64.mono _ _ h1) h.2) hd) (lt_irrefl _)

theorem above_reg {T : RegionTree α ι} (hok : T.Ok) {r a : ι} (hr : T.isReg r) (h : T.Above r a) :
    T.isReg a ∧ T.gray r < T.gray a := by
  induction h with
  | single h => exact ⟨(hok.parent _ hr _ h).1, (hok.parent _ hr _ h).2.1⟩
  | tail _ h ih => exact ⟨(hok.parent _ ih.1 _ h).1, lt_trans ih.2 (hok.parent _ ih.1 _ h).2.1⟩

theorem above_chain {T : RegionTree α ι} {r a b : ι} (h1 : T.Above r a) (h2 : T.Above r b) :
    a = b ∨ T.Above a b ∨ T.Above b a := above_total (T := treeOf T T.isReg 0) h1 h2

/-- Groups of unrelated regions do not compete if the threshold is below 2/5. -/
theorem separate_of {adj : α → α → Prop} {g : α → Nat} {px : Finset α} {T : RegionTree α ι} {cfg : Cfg}
    (hT : IsComponentTree adj g px T) (hok : T.Ok) (h64 : Rounding cfg.r64) (hd : cfg.dup < cfg.r64 (2 / 5)) :
    Separate (Above' T) (Near T cfg.maxPoint cfg.dup cfg.r64) (Reach T) := by
  refine ⟨?_, ?_, ?_, ?_, ?_, ?_⟩
  · intro r a h1 h2
    have := near_lt h64 hd (hok.size_pos r h1.1) h2
    exact ⟨h1, by omega⟩
  · intro r m a h1 h2 h3 h4
    have e1 := near_lt h64 hd (hok.size_pos r h1.1) h2
    have e2 := near_lt h64 hd (hok.size_pos m h1.2.1) h4
    exact ⟨h3, by omega⟩
  · intro r s a hne h1 h2 h3 h4
    have := apart_of (isReg := T.isReg) (m := 0) hT r s a h3.1.1 h4.1.1 h3.1.2.2 h4.1.2.2 hne
      (fun hc => h1 ⟨h3.1.1, h4.1.1, hc⟩) (fun hc => h2 ⟨h4.1.1, h3.1.1, hc⟩)
    have e : T.size r + T.size s ≤ T.size a := this
    have := h3.2
    have := h4.2
    omega
  · intro a b c h1 h2; exact ⟨h1.1, h2.2.1, h1.2.2.trans h2.2.2⟩
  · intro r a b h1 h2
    rcases above_chain h1.2.2 h2.2.2 with e | e | e
    · exact .inl e
    · exact .inr (.inl ⟨h1.2.1, h2.2.1, e⟩)
    · exact .inr (.inr ⟨h2.2.1, h1.2.1, e⟩)
  · intro a h
    have := (above_reg hok h.1 h.2.2).2
    omega

theorem same_above {px : Finset α} {T : RegionTree α ι} {T' : RegionTree α ι'} {f : ι → ι'} (hS : SameTree px T T' f)
    (hok : T.Ok) {r a : ι} (hr : T.isReg r) (ha : T.isReg a) : T'.Above (f r) (f a) ↔ T.Above r a := by
  constructor
  · intro h
    have : ∀ x', T'.Above (f r) x' → ∃ x, T.isReg x ∧ f x = x' ∧ T.Above r x := by
      intro x' hx
      induction hx with
      | single h =>
        rw [hS.parent r hr, Option.map_eq_some_iff] at h
        obtain ⟨x, h1, h2⟩ := h
        exact ⟨x, (hok.parent r hr x h1).1, h2, .single h1⟩
      | tail _ h ih =>
        obtain ⟨y, hy, e, h3⟩ := ih
        rw [← e, hS.parent y hy, Option.map_eq_some_iff] at h
        obtain ⟨x, h1, h2⟩ := h
        exact ⟨x, (hok.parent y hy x h1).1, h2, .tail h3 h1⟩
    obtain ⟨x, hx, e, h3⟩ := this _ h
    rw [← hS.inj x a hx ha e]
    exact h3
  · intro h
    clear ha
    induction h with
    | single h => exact .single (by rw [hS.parent _ hr, h]; rfl)
    | @tail b c h1 h ih =>
      have hb := (above_reg hok hr h1).1
      exact .tail ih (by rw [hS.parent _ hb, h]; rfl)

/-- The same tree, the same configuration: the same is reported. -/
theorem same_report {adj : α → α → Prop} {g : α → Nat} {px : Finset α} {T : RegionTree α ι} {T' : RegionTree α ι'}
    {cfg : Cfg} (hT : IsComponentTree adj g px T) (hT' : IsComponentTree adj g px T') (hg : ∀ p ∈ px, g p < 256)
    (hne : px.Nonempty) (h32 : Rounding cfg.r32) (h64 : Rounding cfg.r64) (hd : cfg.dup < cfg.r64 (2 / 5))
    {out : Recognized ι} {out' : Recognized ι'} {arr : List ι} {arr' : List ι'} {gs : List (List ι × ι)}
    {gs' : List (List ι' × ι')}
    (hR : Result T cfg (Selected T (limits cfg)) out arr gs) (hR' : Result T' cfg (Selected T' (limits cfg)) out' arr' gs') :
    out.reported.length = out'.reported.length ∧ out.pixels = out'.pixels ∧
      ∀ S gray, Delivered px T out.reported S gray ↔ Delivered px T' out'.reported S gray := by
  classical
  obtain ⟨f, hS⟩ := hT.same hT' hne
  have hok := hT.ok hg
  have hok' := hT'.ok hg
  have hreg : ∀ r ∈ arr, T.isReg r := fun r hr => ((hR.mem r).1 hr).reg
  have hreg' : ∀ r ∈ arr', T'.isReg r := fun r hr => ((hR'.mem r).1 hr).reg
  -- the candidates correspond
  have hcand : (arr.map f).Perm arr' := by
    refine (List.perm_ext_iff_of_nodup ?_ hR'.nodup).2 fun r' => ?_
    · exact List.Nodup.map_on (fun x hx y hy e => hS.inj x y (hreg x hx) (hreg y hy) e) hR.nodup
    · rw [List.mem_map, hR'.mem]
      constructor
      · rintro ⟨r, hr, rfl⟩
        exact (same_selected hS hok hok' h32 (hreg r hr)).2 ((hR.mem r).1 hr)
      · intro h
        obtain ⟨r, hr, rfl⟩ := hS.surj r' h.reg
        exact ⟨r, (hR.mem r).2 ((same_selected hS hok hok' h32 hr).1 h), rfl⟩
  -- both groupings, with regions of the second tree
  have hG : Grouping (Above' T') (Near T' cfg.maxPoint cfg.dup cfg.r64) (arr.map f)
      (gs.map fun x => (x.1.map f, f x.2)) := by
    refine hR.groups.map (P := T.isReg) hS.inj ?_ ?_ hreg
    · intro a b ha hb
      rw [← same_above hS hok ha hb]
      exact ⟨fun h => h.2.2, fun h => ⟨hS.reg a ha, hS.reg b hb, h⟩⟩
    · intro a b ha hb
      unfold Near
      rw [hS.size a ha, hS.size b hb]
  have hG' : Grouping (Above' T') (Near T' cfg.maxPoint cfg.dup cfg.r64) arr' gs' := by
    have := hR'.groups.map (f := id) (P := T'.isReg) (above' := Above' T') (near' := Near T' cfg.maxPoint cfg.dup cfg.r64)
      (fun _ _ _ _ e => e) (fun a b ha hb => ⟨fun h => h.2.2, fun h => ⟨ha, hb, h⟩⟩) (fun _ _ _ _ => Iff.rfl) hreg'
    simpa using this
  have hp := Grouping.order_free (separate_of hT' hok' h64 hd) _ (arr.map f) arr' _ _ rfl
    (List.Nodup.map_on (fun x hx y hy e => hS.inj x y (hreg x hx) (hreg y hy) e) hR.nodup) hcand
    (by
      rw [List.pairwise_map]
      refine hR.order.imp_of_mem ?_
      intro x y hx hy h hc
      exact h ((same_above hS hok (hreg y hy) (hreg x hx)).1 hc.2.2))
    (hR'.order.imp fun h hc => h hc.2.2) hG hG'
  -- what is reported is what is kept
  have hkept : ∀ {κ : Type} {U : RegionTree α κ} {o : Recognized κ} {l : List κ} {ks : List (List κ × κ)}
      (_ : Result U cfg (Selected U (limits cfg)) o l ks), o.reported.Perm (kept ks) := by
    intro κ U o l ks h
    refine (List.perm_ext_iff_of_nodup h.rep_nodup (h.groups.kept_nodup h.nodup)).2 fun r => ?_
    constructor
    · intro hr
      obtain ⟨x, hx, hrx⟩ := List.mem_flatMap.1 (h.cover.mem_iff.2 (h.sub r hr))
      exact List.mem_map.2 ⟨x, hx, ((h.one x hx r hrx).1 hr).symm⟩
    · intro hr
      obtain ⟨x, hx, rfl⟩ := List.mem_map.1 hr
      exact (h.one x hx x.2 (h.kept_mem x hx)).2 rfl
  have hrep : (out.reported.map f).Perm out'.reported := by
    refine ((hkept hR).map f).trans (List.Perm.trans ?_ (hkept hR').symm)
    have := hp.map Prod.snd
    rw [List.map_map] at this
    unfold kept
    rw [List.map_map]
    exact this
  have hrr : ∀ r ∈ out.reported, T.isReg r := fun r hr => hreg r (hR.sub r hr)
  refine ⟨?_, ?_, fun S gray => ?_⟩
  · have := hrep.length_eq; simpa using this
  · rw [hR.pixels, hR'.pixels]
    have h1 := (hrep.map T'.size).sum_eq
    rw [List.map_map] at h1
    rw [← h1]
    congr 1
    exact List.map_congr_left fun r hr => (hS.size r (hrr r hr)).symm
  · constructor
    · rintro ⟨r, hr, h1, h2⟩
      refine ⟨f r, hrep.mem_iff.1 (List.mem_map_of_mem hr), by rw [hS.gray r (hrr r hr), h1], fun p => ?_⟩
      rw [h2]
      exact and_congr_right fun hp' => (hS.under r (hrr r hr) p hp').symm
    · rintro ⟨r', hr', h1, h2⟩
      obtain ⟨r, hr, rfl⟩ := List.mem_map.1 (hrep.mem_iff.2 hr')
      refine ⟨r, hr, by rw [← hS.gray r (hrr r hr), h1], fun p => ?_⟩
      rw [h2]
      exact and_congr_right fun hp' => hS.under r (hrr r hr) p hp'

/-- A run of the detector on an image, from the flooded patches to what is reported: `T` is the tree in memory. -/
inductive Detected (cfg : Cfg) (w h : Nat) (img : Nat → Nat → Nat) (gm : Nat) :
    RegionTree (Nat × Nat) (Nat × Nat) → Recognized (Nat × Nat) → Prop
  /-- V2 with one thread -/
  | one {ms : Nat → MSt} {fuel msize exceed : Nat} {W : World (Nat × Nat)} {out : Recognized (Nat × Nat)}
      (var : Nat × Nat → ℚ) (hP : PatchTrees 1 1 1 w h img gm ms) (hf : 512 * joinCount 1 1 1 w h ≤ fuel)
      (hW : mergeTrees 1 1 1 w h ms fuel 512 = some W)
      (he : recognizeSerial cfg fuel (allRegs 1 (patchRegs ms)) msize exceed (ofForest W.F var) = some out) :
      Detected cfg w h img gm (mergedTree 1 1 1 w h ms fuel W) out
  /-- V2 with four threads -/
  | four {ms : Nat → MSt} {fuel msize exceed : Nat} {W : World (Nat × Nat)} {out : Recognized (Nat × Nat)}
      (var : Nat × Nat → ℚ) (hP : PatchTrees 4 2 2 w h img gm ms) (hf : 512 * joinCount 4 2 2 w h ≤ fuel)
      (hW : mergeTrees 4 2 2 w h ms fuel 512 = some W)
      (he : recognizeAccel cfg Prod.fst fuel 4 (fun k => (pinfo 2 2 w h k).width * (pinfo 2 2 w h k).height + 257)
        (patchRegs ms) msize exceed (ofForest W.F var) = some out) :
      Detected cfg w h img gm (mergedTree 4 2 2 w h ms fuel W) out
  /-- V2 with 32 threads -/
  | many {ms : Nat → MSt} {fuel msize exceed : Nat} {W : World (Nat × Nat)} {out : Recognized (Nat × Nat)}
      (var : Nat × Nat → ℚ) (hP : PatchTrees 32 8 4 w h img gm ms) (hf : 512 * joinCount 32 8 4 w h ≤ fuel)
      (hW : mergeTrees 32 8 4 w h ms fuel 512 = some W)
      (he : recognizeParallel cfg Prod.fst fuel 32 (patchRegs ms) msize exceed (ofForest W.F var) = some out) :
      Detected cfg w h img gm (mergedTree 32 8 4 w h ms fuel W) out
  /-- V1 with 1, 2, 4, 8, 16 or 32 threads in 4-neighbour mode; `lab` tells which region a point came from -/
  | v1 {n hp vp : Nat} {pk : Nat → Nat → Point} {border : Nat → Nat → Nat → Option Nat} {steps : Nat → Nat}
      {v : Nat → V1.St} {pts : Nat → Point} {fuel bound : Nat} {M : Mem (Nat × Nat)} {lab : Nat × Nat → Nat × Nat}
      {L : Nat × Nat → List Nat} {out : Recognized (Nat × Nat)} (var : Nat × Nat → ℚ)
      (hl : layoutV1 n = some (hp, vp)) (hw : hp ≤ w) (hh : vp ≤ h)
      (hr : AllEnded false n hp vp w h img gm pk border steps v) (hb : 513 ≤ bound)
      (hf : bound * ((hp - 1) * h + (vp - 1) * w + 1) ≤ fuel)
      (hM : mergeTreesV1 n hp vp w h img gm v pts fuel bound = some M)
      (hL : MergedV1 (Adj4 w h) w h img gm M (mergedTreeV1 n v lab fuel M) L)
      (he : recognizeV1 cfg Prod.fst fuel n (regsV1 v) (heapSize n w h) (ofForest M.forest var) = some out) :
      Detected cfg w h img gm (mergedTreeV1 n v lab fuel M) out

/-- What a run leaves behind. -/
theorem Detected.result {cfg : Cfg} {w h : Nat} {img : Nat → Nat → Nat} {gm : Nat} {T : RegionTree (Nat × Nat) (Nat × Nat)}
    {out : Recognized (Nat × Nat)} (hD : Detected cfg w h img gm T out) (hI : ImageOK w h img gm) (hc : w * h < 2 ^ 31)
    (h32 : Rounding cfg.r32) (h64 : Rounding cfg.r64) (hst : -1 ≤ cfg.stable) (hde : 1 ≤ cfg.delta)
    (hd : cfg.dup < cfg.r64 (3 / 5)) :
    IsComponentTree (Adj4 w h) (fun p => img p.1 p.2 ^^^ gm) (pixels w h) T ∧
      ∃ arr gs, Result T cfg (Selected T (limits cfg)) out arr gs := by
  cases hD with
  | one var hP hf hW he =>
    obtain ⟨W', out', arr, gs, h1, h2, h3, h4⟩ := C23_image_serial hP hf var h32 h64 hst hde
    obtain rfl := Option.some.inj (hW.symm.trans h1)
    obtain rfl := Option.some.inj (he.symm.trans h3)
    exact ⟨h2, arr, gs, h4⟩
  | four var hP hf hW he =>
    obtain ⟨W', out', arr, gs, h1, h2, h3, h4⟩ := C23_image_four hP hf var h32 h64 hst
    obtain rfl := Option.some.inj (hW.symm.trans h1)
    obtain rfl := Option.some.inj (he.symm.trans h3)
    exact ⟨h2, arr, gs, h4⟩
  | many var hP hf hW he =>
    obtain ⟨W', out', arr, gs, h1, h2, h3, h4⟩ := C23_image_parallel hP hf var h32 h64 hst
    obtain rfl := Option.some.inj (hW.symm.trans h1)
    obtain rfl := Option.some.inj (he.symm.trans h3)
    exact ⟨h2, arr, gs, h4⟩
  | @v1 n hp vp pk border steps v pts fuel bound M lab L _ var hl hw hh hr hb hf hM hL he =>
    obtain ⟨M', _, _, h1, _, m0, h3, h4⟩ := mergedV1_str (pts := pts) hl hw hh hI hr hb hf
    obtain rfl := Option.some.inj (hM.symm.trans h1)
    obtain ⟨out', arr, gs, _, e, hres, _⟩ := recogV1_at hI hc hL h3 h4 var h32 h64 hst hd
    obtain rfl := Option.some.inj (he.symm.trans e)
    exact ⟨hL.tree, arr, gs, hres⟩

/-- **C70** (partial) As long as the duplicate threshold is below 2/5: V2 with 1, 4 and 32 threads and V1 (4-neighbour
mode) with 1, 2, 4, 8, 16 and 32 threads report the same regions of an image, that is, the same sets of pixels with
the same gray levels.  (The full property: for every threshold.) -/
theorem C70_threads_irrelevant_partial {cfg : Cfg} {w h : Nat} {img : Nat → Nat → Nat} {gm : Nat}
    {T T' : RegionTree (Nat × Nat) (Nat × Nat)} {out out' : Recognized (Nat × Nat)}
    (hI : ImageOK w h img gm) (hc : w * h < 2 ^ 31)
    (h32 : Rounding cfg.r32) (h64 : Rounding cfg.r64) (hst : -1 ≤ cfg.stable) (hde : 1 ≤ cfg.delta)
    (hd : cfg.dup < cfg.r64 (2 / 5)) (hD : Detected cfg w h img gm T out) (hD' : Detected cfg w h img gm T' out') :
    out.reported.length = out'.reported.length ∧ out.pixels = out'.pixels ∧
      ∀ S gray, Delivered (pixels w h) T out.reported S gray ↔ Delivered (pixels w h) T' out'.reported S gray := by
  have hd' : cfg.dup < cfg.r64 (3 / 5) := lt_of_lt_of_le hd (h64.mono _ _ (by norm_num))
  obtain ⟨h1, arr, gs, h2⟩ := hD.result hI hc h32 h64 hst hde hd'
  obtain ⟨h3, arr', gs', h4⟩ := hD'.result hI hc h32 h64 hst hde hd'
  exact same_report h1 h3 (graysV1 hI) ⟨(0, 0), mem_pixels.2 ⟨hI.w_pos, hI.h_pos⟩⟩ h32 h64 hd h2 h4

/-- Runs with V2 on one and on four threads and with V1 on two threads for a 3×2 image; the threshold is 1/5. -/
example : ∃ T T' T'' out out' out'', Detected sampleCfg 3 2 sampleImg 0 T out ∧ Detected sampleCfg 3 2 sampleImg 0 T' out' ∧
    Detected sampleCfg 3 2 sampleImg 0 T'' out'' ∧ ImageOK 3 2 sampleImg 0 ∧ sampleCfg.dup < sampleCfg.r64 (2 / 5) ∧
    Rounding sampleCfg.r32 ∧ Rounding sampleCfg.r64 ∧ -1 ≤ sampleCfg.stable ∧ 1 ≤ sampleCfg.delta := by
  have hI : ImageOK 3 2 sampleImg 0 :=
    ⟨by decide, by decide, fun x y _ _ => by unfold sampleImg; split <;> [skip; split] <;> decide, by decide⟩
  have hst : -1 ≤ sampleCfg.stable := by norm_num [sampleCfg]
  have hd : sampleCfg.dup < sampleCfg.r64 (3 / 5) := by norm_num [sampleCfg]
  obtain ⟨ms, h1⟩ := patchTrees_exist (n := 4) (hp := 2) (vp := 2) rfl (by decide) (by decide) hI (by decide) (by decide)
  obtain ⟨ms₁, h2⟩ := patchTrees_exist (n := 1) (hp := 1) (vp := 1) rfl (by decide) (by decide) hI (by decide) (by decide)
  obtain ⟨W, out, arr, gs, a1, a2, a3, a4⟩ := C23_image_four (cfg := sampleCfg) (msize := 0) (exceed := 0) h1 (le_refl _)
    (fun _ => 0) rounding_id rounding_id hst
  obtain ⟨W₁, out₁, arr₁, gs₁, b1, b2, b3, b4⟩ := C23_image_serial (cfg := sampleCfg) (msize := 0) (exceed := 0) h2 (le_refl _)
    (fun _ => 0) rounding_id rounding_id hst (by decide)
  obtain ⟨v, hv⟩ := C64_all_patches_end (eight := false) (pk := fun _ _ => ⟨0, 0, none, none, none⟩)
    (border := fun _ _ _ => none) (n := 2) (hp := 2) (vp := 1) rfl (by decide) (by decide) hI (by decide)
  obtain ⟨M, lab, L, o, _, _, _, c1, c2, c3, _⟩ := recogV1 (pts := fun _ => ⟨0, 0, none, none, none⟩) (fuel := 10000)
    (bound := 513) (cfg := sampleCfg) rfl (by decide) (by decide) hI (by decide) hv (by decide) (by decide) (fun _ => 0)
    rounding_id rounding_id hst hd
  rw [mixed_four] at c2
  exact ⟨_, _, _, out₁, out, o, .one _ h2 (le_refl _) b1 b3, .four _ h1 (le_refl _) a1 a3,
    .v1 _ rfl (by decide) (by decide) hv (by decide) (by decide) c1 c2 c3, hI, by norm_num [sampleCfg], rounding_id,
    rounding_id, hst, by decide⟩

end Verif.Props
