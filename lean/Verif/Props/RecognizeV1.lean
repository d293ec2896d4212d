import Verif.Proof.RecogV1
import Verif.Props.Whole
import Verif.Props.MergeV1

/-!
# Property C67: recognition of stable regions in Fast MSER V1
-/

namespace Verif.Props

open Verif.Spec Verif.Recog Verif.Partition
open Verif.Connect (Forest Str forestTree)
open Verif.V1 (Point Mem MixedAdj mergeTreesV1)

variable {α ι : Type} {eight : Bool} {n hp vp w h : Nat} {img : Nat → Nat → Nat} {gm : Nat} {pk : Nat → Nat → Point}
  {border : Nat → Nat → Nat → Option Nat} {v : Nat → V1.St} {pts : Nat → Point} {steps : Nat → Nat} {fuel bound : Nat}
  {cfg : Cfg}

/-- The regions of patch `k` of V1, in the order in which they were made. -/
def regsV1 (v : Nat → V1.St) (k : Nat) : List (Nat × Nat) := (List.range (v k).nreg).map fun r => (k, r)

theorem blocksV1 : Blocks (fun kr : Nat × Nat => kr.1 < n ∧ kr.2 < (v kr.1).nreg) Prod.fst n (regsV1 v) := by
  refine ⟨fun k _ => ?_, fun k hk r => ?_, fun r hr => hr.1⟩
  · exact List.Nodup.map (fun a b e => (Prod.mk.inj e).2) List.nodup_range
  · unfold regsV1
    rw [List.mem_map]
    constructor
    · rintro ⟨x, hx, rfl⟩; exact ⟨⟨hk, List.mem_range.1 hx⟩, rfl⟩
    · rintro ⟨⟨_, h2⟩, rfl⟩; exact ⟨r.2, List.mem_range.2 h2, rfl⟩

/-- Regions of a component tree of which neither contains the other have no pixel in common. -/
theorem apart_of {adj : α → α → Prop} {g : α → Nat} {px : Finset α} {T : RegionTree α ι} {isReg : ι → Prop} {m : Nat}
    (hT : IsComponentTree adj g px T) : Apart (treeOf T isReg m) := by
  classical
  intro a b p ha hb hap hbp hne hab hba
  have ha' : T.isReg a := ha
  have hb' : T.isReg b := hb
  have hanc : ∀ {x y : ι}, T.Anc x y → x ≠ y → above (treeOf T isReg m) x y := by
    intro x y hxy hne
    rcases Relation.reflTransGen_iff_eq_or_transGen.1 hxy with e | e
    · exact absurd e.symm hne
    · exact e
  have hp' : T.isReg p := (hT.anc_reg ha' (Relation.TransGen.to_reflTransGen hap)).1
  show T.size a + T.size b ≤ T.size p
  rw [hT.size_card ha', hT.size_card hb', hT.size_card hp', ← Finset.card_union_of_disjoint]
  · refine Finset.card_le_card fun q hq => ?_
    rw [Finset.mem_union, Finset.mem_filter, Finset.mem_filter] at hq
    rw [Finset.mem_filter]
    rcases hq with ⟨h1, h2⟩ | ⟨h1, h2⟩
    · exact ⟨h1, Relation.ReflTransGen.trans h2 (Relation.TransGen.to_reflTransGen hap)⟩
    · exact ⟨h1, Relation.ReflTransGen.trans h2 (Relation.TransGen.to_reflTransGen hbp)⟩
  · rw [Finset.disjoint_left]
    intro q hq hq'
    rw [Finset.mem_filter] at hq hq'
    rcases le_total (T.gray a) (T.gray b) with hg | hg
    · exact hab (hanc (hT.anc_of_common hq.1 hq.2 hq'.2 hg) hne)
    · exact hba (hanc (hT.anc_of_common hq.1 hq'.2 hq.2 hg) (Ne.symm hne))

/-- A list of regions is not longer than there are pixels. -/
theorem regions_le {adj : α → α → Prop} {g : α → Nat} {px : Finset α} {T : RegionTree α ι}
    (hT : IsComponentTree adj g px T) (l : List ι) (hnd : l.Nodup) (hl : ∀ r ∈ l, T.isReg r) : l.length ≤ px.card := by
  classical
  have hsub : l.toFinset ⊆ px.image T.lab := by
    intro r hr
    obtain ⟨p, hp', e⟩ := hT.reg_lab r (hl r (List.mem_toFinset.1 hr))
    exact Finset.mem_image.2 ⟨p, hp', e⟩
  have h1 := le_trans (Finset.card_le_card hsub) Finset.card_image_le
  rwa [List.toFinset_card_of_nodup hnd] at h1

theorem graysV1 (hI : ImageOK w h img gm) : ∀ p ∈ pixels w h, img p.1 p.2 ^^^ gm < 256 := by
  intro p hp'
  rw [mem_pixels] at hp'
  exact Nat.xor_lt_two_pow (n := 8) (hI.img_lt _ _ hp'.1 hp'.2) hI.gm_lt

/-- Recognition of V1 on what joining leaves behind. -/
theorem recogV1_at {adj : Nat × Nat → Nat × Nat → Prop} {M : Mem (Nat × Nat)} {lab : Nat × Nat → Nat × Nat}
    {L : Nat × Nat → List Nat} {m0 : Nat} (hI : ImageOK w h img gm) (hc : w * h < 2 ^ 31)
    (h2 : MergedV1 adj w h img gm M (mergedTreeV1 n v lab fuel M) L)
    (h3 : Str (fun kr : Nat × Nat => kr.1 < n ∧ kr.2 < (v kr.1).nreg) (fun r => (M.forest r).gray) M.forest m0)
    (h4 : m0 ≤ fuel) (var : Nat × Nat → ℚ)
    (h32 : Rounding cfg.r32) (h64 : Rounding cfg.r64) (hst : -1 ≤ cfg.stable) (hd : cfg.dup < cfg.r64 (3 / 5)) :
    ∃ out arr gs m,
      recognizeV1 cfg Prod.fst fuel n (regsV1 v) (heapSize n w h) (ofForest M.forest var) = some out ∧
      Result (mergedTreeV1 n v lab fuel M) cfg (Selected (mergedTreeV1 n v lab fuel M) (limits cfg)) out arr gs ∧
      m ≤ fuel ∧ (treeOf (mergedTreeV1 n v lab fuel M) (fun kr => kr.1 < n ∧ kr.2 < (v kr.1).nreg) m).Ok ∧
      Outcome (treeOf (mergedTreeV1 n v lab fuel M) (fun kr => kr.1 < n ∧ kr.2 < (v kr.1).nreg) m) cfg true
        (allRegs n (regsV1 v)) out := by
  classical
  have hH : Held (fun kr : Nat × Nat => kr.1 < n ∧ kr.2 < (v kr.1).nreg) M.forest fuel (mergedTreeV1 n v lab fuel M) :=
    ⟨⟨m0, h3, h4⟩, ⟨lab, rfl⟩, h2.tree.ok (graysV1 hI)⟩
  obtain ⟨m, hm, hT, hR, hreg, hfresh⟩ := hH.use
  have hB := blocksV1 (n := n) (v := v)
  have hcard : (pixels w h).card = w * h := by simp [pixels]
  have hsz : ∀ r, (mergedTreeV1 n v lab fuel M).isReg r → (mergedTreeV1 n v lab fuel M).size r < 2 ^ 31 := by
    intro r hr
    rw [h2.tree.size_card hr]
    have := Finset.card_filter_le (pixels w h) (fun p => (mergedTreeV1 n v lab fuel M).Under r p)
    omega
  have hcap : ∀ l : List (Nat × Nat), l.Nodup → (∀ r ∈ l, (mergedTreeV1 n v lab fuel M).isReg r) →
      l.length ≤ heapSize n w h := by
    intro l hnd hl
    have := regions_le h2.tree l hnd hl
    unfold heapSize
    have := Nat.mul_comm h w
    omega
  obtain ⟨out, e2, hO⟩ := recognizeV1_spec (cfg := cfg) (pidx := Prod.fst) (hsize := heapSize n w h) hT h64
    hsz hd (apart_of h2.tree) hm hB.all.1
    (fun r hr => (hB.all.2 r).1 hr) (fun r hr => (hB.all.2 r).2 (hreg r hr)) (hR var) (hfresh var) hcap
  obtain ⟨arr, gs, hres⟩ := result_of hT hO
  have : (fun r => (mergedTreeV1 n v lab fuel M).isReg r ∧
      ¬ finalBad (treeOf (mergedTreeV1 n v lab fuel M) (fun kr => kr.1 < n ∧ kr.2 < (v kr.1).nreg) m) cfg true r) =
      Selected (mergedTreeV1 n v lab fuel M) (limits cfg) :=
    funext fun r => propext (selected_iff hH.ok hreg h32 hst)
  rw [this] at hres
  exact ⟨out, arr, gs, m, e2, hres, hm, hT, hO⟩

/-- Flooding, joining and recognition of V1 together. -/
theorem recogV1 (hl : layoutV1 n = some (hp, vp)) (hw : hp ≤ w) (hh : vp ≤ h) (hI : ImageOK w h img gm)
    (hc : w * h < 2 ^ 31) (hr : AllEnded eight n hp vp w h img gm pk border steps v) (hb : 513 ≤ bound)
    (hf : bound * ((hp - 1) * h + (vp - 1) * w + 1) ≤ fuel) (var : Nat × Nat → ℚ)
    (h32 : Rounding cfg.r32) (h64 : Rounding cfg.r64) (hst : -1 ≤ cfg.stable) (hd : cfg.dup < cfg.r64 (3 / 5)) :
    ∃ M lab L out arr gs m, mergeTreesV1 n hp vp w h img gm v pts fuel bound = some M ∧
      MergedV1 (MixedAdj eight hp vp w h) w h img gm M (mergedTreeV1 n v lab fuel M) L ∧
      recognizeV1 cfg Prod.fst fuel n (regsV1 v) (heapSize n w h) (ofForest M.forest var) = some out ∧
      Result (mergedTreeV1 n v lab fuel M) cfg (Selected (mergedTreeV1 n v lab fuel M) (limits cfg)) out arr gs ∧
      m ≤ fuel ∧ (treeOf (mergedTreeV1 n v lab fuel M) (fun kr => kr.1 < n ∧ kr.2 < (v kr.1).nreg) m).Ok ∧
      Outcome (treeOf (mergedTreeV1 n v lab fuel M) (fun kr => kr.1 < n ∧ kr.2 < (v kr.1).nreg) m) cfg true
        (allRegs n (regsV1 v)) out := by
  obtain ⟨M, lab, L, h1, h2, m0, h3, h4⟩ := mergedV1_str (pts := pts) hl hw hh hI hr hb hf
  obtain ⟨out, arr, gs, m, e⟩ := recogV1_at hI hc h2 h3 h4 var h32 h64 hst hd
  exact ⟨M, lab, L, out, arr, gs, m, h1, h2, e⟩

/-- **C67** (partial) As long as the duplicate threshold is below 3/5, with every thread number of V1 and in both
modes: recognition ends, the candidates are the selected regions of the tree of the image, and what is reported
is one region of every group of nested nearly equal candidates, as in V2.  (The full property: for every
threshold.) -/
theorem C67_recognition_v1_partial (hl : layoutV1 n = some (hp, vp)) (hw : hp ≤ w) (hh : vp ≤ h)
    (hI : ImageOK w h img gm)
    (hc : w * h < 2 ^ 31) (hr : AllEnded eight n hp vp w h img gm pk border steps v) (hb : 513 ≤ bound)
    (hf : bound * ((hp - 1) * h + (vp - 1) * w + 1) ≤ fuel) (var : Nat × Nat → ℚ)
    (h32 : Rounding cfg.r32) (h64 : Rounding cfg.r64) (hst : -1 ≤ cfg.stable) (hd : cfg.dup < cfg.r64 (3 / 5)) :
    ∃ M lab out arr gs, mergeTreesV1 n hp vp w h img gm v pts fuel bound = some M ∧
      IsComponentTree (MixedAdj eight hp vp w h) (fun p => img p.1 p.2 ^^^ gm) (pixels w h)
        (mergedTreeV1 n v lab fuel M) ∧
      recognizeV1 cfg Prod.fst fuel n (regsV1 v) (heapSize n w h) (ofForest M.forest var) = some out ∧
      Result (mergedTreeV1 n v lab fuel M) cfg (Selected (mergedTreeV1 n v lab fuel M) (limits cfg)) out arr gs := by
  obtain ⟨M, lab, L, out, arr, gs, _, h1, h2, h3, h4, _⟩ := recogV1 (pts := pts) hl hw hh hI hc hr hb hf var h32 h64 hst hd
  exact ⟨M, lab, out, arr, gs, h1, h2.tree, h3, h4⟩

/-- The threshold of the default configuration (img_mser_base.h 75) and what is needed beside it. -/
example : (1 / 10 : ℚ) < id (3 / 5) ∧ layoutV1 4 = some (2, 2) ∧ 300 * 200 < 2 ^ 31 ∧ (-1 : ℚ) ≤ 1 / 4 := by
  refine ⟨?_, rfl, by decide, ?_⟩ <;> norm_num

/-! ### A threshold of 2 -/

/-- Regions 0 and 1 lie in region 2; region 3 lies beside; region 4 is the whole image. -/
def twinForest : Forest Nat := fun r =>
  match r with
  | 0 => { gray := 1, parent := some 2, merged := false, size := 1 }
  | 1 => { gray := 1, parent := some 2, merged := false, size := 1 }
  | 2 => { gray := 3, parent := some 4, merged := false, size := 3 }
  | 3 => { gray := 5, parent := some 4, merged := false, size := 1 }
  | 4 => { gray := 7, parent := none, merged := false, size := 9 }
  | _ => { gray := 0, parent := none, merged := false, size := 0 }

theorem twin_held : Held (fun r => r < 5) twinForest 1
    (forestTree 1 (fun r => r < 5) (fun _ : Unit => 0) twinForest) := by
  refine ⟨⟨0, ⟨fun _ => rfl, ?_, ?_, ?_, ?_, ?_, ?_⟩, by omega⟩, ⟨_, rfl⟩, ⟨?_, ?_, ?_⟩⟩
  · intro r hr; interval_cases r <;> simp [twinForest]
  · intro r hr r' h; interval_cases r <;> simp [twinForest] at h <;> omega
  · intro r r' h
    by_contra hn
    match r, hn with
    | 0, hn | 1, hn | 2, hn | 3, hn | 4, hn => omega
    | r + 5, _ => simp [twinForest] at h
  · intro r hr hm r' h; interval_cases r <;> simp [twinForest] at h hm <;> subst h <;> simp [twinForest]
  · intro r hr hm; interval_cases r <;> simp [twinForest] at hm ⊢
  · intro r hr
    interval_cases r <;> exact ⟨0, by omega, _, rfl, rfl⟩
  · rintro r ⟨hr, hm⟩ p h
    simp only [forestTree] at h ⊢
    interval_cases r <;> simp [twinForest, Connect.chase] at h <;> subst h <;> simp [twinForest]
  · rintro r ⟨hr, hm⟩; simp only [forestTree]; interval_cases r <;> simp [twinForest]
  · rintro r ⟨hr, hm⟩; simp only [forestTree]; interval_cases r <;> simp [twinForest] at hm ⊢

/-- Every region with 1 to 5 pixels is stable enough; duplicates may have three times the size. -/
def twinCfg : Cfg where
  delta := 1
  minPoint := 1
  maxPoint := 5
  stable := 100
  nms := 0
  dup := 2
  r32 := id
  r64 := id

/-- **C67** is false of the code for large thresholds: with threshold 2, V1 reports region 2 twice.  V2 reports no
region twice (C23). -/
theorem C67_region_reported_twice : ∃ out, recognizeV1 twinCfg (fun _ => 0) 1 1 (fun _ => [0, 1, 2, 3, 4])
      (heapSize 1 3 3) (ofForest twinForest fun _ => 0) = some out ∧
    out.reported = [2, 3, 2] ∧ ¬ out.reported.Nodup := by
  have h : (recognizeV1 twinCfg (fun _ => 0) 1 1 (fun _ => [0, 1, 2, 3, 4]) (heapSize 1 3 3)
      (ofForest twinForest fun _ => 0)).map Recognized.reported = some [2, 3, 2] := by decide +kernel
  obtain ⟨out, h1, h2⟩ := Option.map_eq_some_iff.1 h
  exact ⟨out, h1, h2, by rw [h2]; decide⟩

/-- The regions of the example are a tree in memory, so V2's result on it is as C23 says. -/
example : Held (fun r => r < 5) twinForest 1 (forestTree 1 (fun r => r < 5) (fun _ : Unit => 0) twinForest) ∧
    (∀ r, r ∈ [0, 1, 2, 3, 4] ↔ r < 5) ∧ (1 : Int) ≤ twinCfg.delta :=
  ⟨twin_held, fun r => by simp only [List.mem_cons, List.not_mem_nil, or_false]; omega, by decide⟩

end Verif.Props
