import Verif.Props.SameReport
import Verif.Props.ExtractWitness

/-!
# Property C70 for large thresholds: the number of threads matters
-/

namespace Verif.Props

open Verif.Spec Verif.Recog Verif.Partition
open Verif.Connect (World)
open Verif.FloodMem (MSt)

/-- In the joined tree a region still has a pixel of the patch in which it was made. -/
theorem region_pixel {n hp vp w h : Nat} {img : Nat → Nat → Nat} {gm fuel : Nat} {ms : Nat → MSt}
    (hP : PatchTrees n hp vp w h img gm ms) {W : World (Nat × Nat)} {r : Nat × Nat}
    (hr : (mergedTree n hp vp w h ms fuel W).isReg r) :
    ∃ p ∈ pixels w h, (mergedTree n hp vp w h ms fuel W).lab p = r ∧ patchOf hp vp w h p = r.1 := by
  obtain ⟨⟨h1, h2⟩, h3⟩ := hr
  obtain ⟨hn, hhp, hvp⟩ : n = hp * vp ∧ 1 ≤ hp ∧ 1 ≤ vp := by
    have := hP.layout
    unfold layoutV2 at this
    split at this <;> simp at this <;> obtain ⟨rfl, rfl⟩ := this <;> omega
  obtain ⟨q, hq, e⟩ := (hP.tree r.1 h1).reg_lab r.2 h2
  rw [mem_pixels] at hq
  obtain ⟨i1, i2⟩ := pinfo_inside (w := w) (h := h) hhp (by rw [← hn]; exact h1)
  have hpx : (q.1 + (pinfo hp vp w h r.1).left, q.2 + (pinfo hp vp w h r.1).top) ∈ pixels w h := by
    rw [mem_pixels]; exact ⟨by simp only; omega, by simp only; omega⟩
  have hk : patchOf hp vp w h (q.1 + (pinfo hp vp w h r.1).left, q.2 + (pinfo hp vp w h r.1).top) = r.1 := by
    rw [patchOf_eq hhp hvp hpx (by rw [← hn]; exact h1)]
    unfold PInfo.Has
    exact ⟨by simp only; omega, by simp only; omega, by simp only; omega, by simp only; omega⟩
  refine ⟨_, hpx, ?_, hk⟩
  unfold mergedTree Connect.forestTree
  simp only [hk]
  have el : (patchTree (pinfo hp vp w h) ms r.1).lab
      (q.1 + (pinfo hp vp w h r.1).left, q.2 + (pinfo hp vp w h r.1).top) = r.2 := by
    unfold patchTree
    simp only [Nat.add_sub_cancel]
    exact e
  rw [el]
  have : Connect.chase W.F fuel (some (r.1, r.2)) = some (some r) := by
    cases fuel <;> simp [Connect.chase, h3]
  rw [this]
  rfl

/-- Two dark pixels, at (3,1) and (4,0), joined by the pixel (3,0). -/
def hookImg : Nat → Nat → Nat := fun x y =>
  if x = 3 ∧ y = 1 ∨ x = 4 ∧ y = 0 then 1 else if x = 3 ∧ y = 0 then 3 else 7

/-- Every region with at most five pixels is stable enough; duplicates may have three times the size. -/
def hookCfg : Cfg where
  delta := 1
  minPoint := 1
  maxPoint := 5
  stable := 100
  nms := -1
  dup := 2
  r32 := id
  r64 := id

theorem hook_ok : ImageOK 8 4 hookImg 0 :=
  ⟨by decide, by decide, fun x y _ _ => by unfold hookImg; split <;> [skip; split] <;> decide, by decide⟩

theorem hook_val (p : Nat × Nat) : hookImg p.1 p.2 = 1 ∧ (p = (3, 1) ∨ p = (4, 0)) ∨
    hookImg p.1 p.2 = 3 ∧ p = (3, 0) ∨ hookImg p.1 p.2 = 7 := by
  obtain ⟨x, y⟩ := p
  unfold hookImg
  simp only [Prod.mk.injEq]
  split
  · exact .inl ⟨rfl, by assumption⟩
  · split
    · exact .inr (.inl ⟨rfl, by assumption⟩)
    · exact .inr (.inr rfl)

variable {ι : Type} {T : RegionTree (Nat × Nat) ι}

/-- A dark pixel is a region. -/
theorem hook_dark (hT : IsComponentTree (Adj4 8 4) (fun p => hookImg p.1 p.2) (pixels 8 4) T) {p : Nat × Nat}
    (hp : p = (3, 1) ∨ p = (4, 0)) :
    (∀ q ∈ pixels 8 4, T.Under (T.lab p) q ↔ q = p) ∧ T.gray (T.lab p) = 1 ∧ T.size (T.lab p) = 1 := by
  have hpx : p ∈ pixels 8 4 := by rcases hp with rfl | rfl <;> decide
  have hg : T.gray (T.lab p) = 1 := by rw [hT.lab_gray p hpx]; rcases hp with rfl | rfl <;> rfl
  have hu : ∀ q ∈ pixels 8 4, T.Under (T.lab p) q ↔ q = p := by
    intro q hq
    rw [hT.comp _ (hT.lab_reg p hpx) p hpx .refl q hq, hg]
    constructor
    · intro h
      rcases Relation.ReflTransGen.cases_head h with e | ⟨b, ⟨⟨_, _, ha⟩, _, hb⟩, _⟩
      · exact e.symm
      · exfalso
        have hb : hookImg b.1 b.2 ≤ 1 := hb
        rcases hook_val b with ⟨_, e⟩ | ⟨e, _⟩ | e
        · rcases hp with rfl | rfl <;> rcases e with rfl | rfl <;> revert ha <;> decide
        · omega
        · omega
    · rintro rfl; exact .refl
  refine ⟨hu, hg, ?_⟩
  rw [hT.size_eq _ (hT.lab_reg p hpx) {p}]
  · simp
  · intro q
    rw [Finset.mem_singleton]
    constructor
    · rintro rfl; exact ⟨hpx, .refl⟩
    · rintro ⟨hq, h⟩; exact (hu q hq).1 h

/-- The three pixels together are a region. -/
theorem hook_mid (hT : IsComponentTree (Adj4 8 4) (fun p => hookImg p.1 p.2) (pixels 8 4) T) :
    (∀ q ∈ pixels 8 4, T.Under (T.lab (3, 0)) q ↔ q = (3, 0) ∨ q = (3, 1) ∨ q = (4, 0)) ∧
      T.gray (T.lab (3, 0)) = 3 ∧ T.size (T.lab (3, 0)) = 3 := by
  have hpx : (3, 0) ∈ pixels 8 4 := by decide
  have hg : T.gray (T.lab (3, 0)) = 3 := hT.lab_gray _ hpx
  have hu : ∀ q ∈ pixels 8 4, T.Under (T.lab (3, 0)) q ↔ q = (3, 0) ∨ q = (3, 1) ∨ q = (4, 0) := by
    intro q hq
    rw [hT.comp _ (hT.lab_reg _ hpx) _ hpx .refl q hq, hg]
    constructor
    · intro h
      have hle : hookImg q.1 q.2 ≤ 3 := by
        rcases Relation.ReflTransGen.cases_tail h with e | ⟨b, _, ⟨_, _, hb⟩⟩
        · rw [e]; decide
        · exact hb
      rcases hook_val q with ⟨_, e⟩ | ⟨_, e⟩ | e
      · exact .inr e
      · exact .inl e
      · omega
    · rintro (rfl | rfl | rfl)
      · exact .refl
      · exact .single ⟨⟨by decide, by decide, by decide⟩, by decide, by decide⟩
      · exact .single ⟨⟨by decide, by decide, by decide⟩, by decide, by decide⟩
  refine ⟨hu, hg, ?_⟩
  rw [hT.size_eq _ (hT.lab_reg _ hpx) {(3, 0), (3, 1), (4, 0)}]
  · decide
  · intro q
    simp only [Finset.mem_insert, Finset.mem_singleton]
    constructor
    · intro h
      have hq : q ∈ pixels 8 4 := by rcases h with rfl | rfl | rfl <;> decide
      exact ⟨hq, (hu q hq).2 h⟩
    · rintro ⟨hq, h⟩; exact (hu q hq).1 h

/-- The regions selected: the two dark pixels and the three together. -/
theorem hook_selected (hT : IsComponentTree (Adj4 8 4) (fun p => hookImg p.1 p.2) (pixels 8 4) T) (r : ι) :
    Selected T (limits hookCfg) r ↔ r = T.lab (3, 1) ∨ r = T.lab (4, 0) ∨ r = T.lab (3, 0) := by
  classical
  have hok : T.Ok := hT.ok (fun p _ => by rcases hook_val p with h | h | h <;> omega)
  have hcard : (pixels 8 4).card = 32 := by simp [pixels]
  have hsz : ∀ r, T.isReg r → T.size r ≤ 32 := by
    intro r hr
    rw [hT.size_card hr]
    have := Finset.card_filter_le (pixels 8 4) (fun p => T.Under r p)
    omega
  constructor
  · intro hs
    obtain ⟨p, hp, rfl⟩ := hT.reg_lab r hs.reg
    rcases hook_val p with ⟨_, rfl | rfl⟩ | ⟨_, rfl⟩ | e
    · exact .inl rfl
    · exact .inr (.inl rfl)
    · exact .inr (.inr rfl)
    · exfalso
      obtain ⟨r', e'⟩ := Option.ne_none_iff_exists'.1 hs.parent
      obtain ⟨h1, h2⟩ := hT.parent_reg _ hs.reg r' e'
      obtain ⟨q, hq, eq⟩ := hT.reg_lab r' h1
      have g1 : T.gray (T.lab p) = hookImg p.1 p.2 := hT.lab_gray p hp
      have g2 : T.gray (T.lab q) = hookImg q.1 q.2 := hT.lab_gray q hq
      rw [eq] at g2
      have := hook_val q
      omega
  · have sel : ∀ p ∈ pixels 8 4, T.size (T.lab p) ≤ 5 → Selected T (limits hookCfg) (T.lab p) := by
      intro p hp h5
      have hreg := hT.lab_reg p hp
      have hpos := hok.size_pos _ hreg
      refine ⟨hreg, ?_, ?_, ?_, ?_, ?_⟩
      · rintro v ⟨s, hw, ⟨_, e⟩ | ⟨_, e⟩⟩
        · obtain rfl := Option.some.inj e
          have hs' := hsz s (hT.anc_reg hreg hw.anc).1
          show (((T.size s : Int) - (T.size (T.lab p) : Int) : Int) : ℚ) / ((T.size (T.lab p) : Int) : ℚ) ≤ 100
          have h1 : (1 : ℚ) ≤ ((T.size (T.lab p) : Int) : ℚ) := by exact_mod_cast hpos
          have h2 : (((T.size s : Int) - (T.size (T.lab p) : Int) : Int) : ℚ) ≤ 100 := by
            exact_mod_cast (show ((T.size s : Int) - (T.size (T.lab p) : Int) : Int) ≤ 100 by omega)
          rw [div_le_iff₀ (by linarith)]
          linarith
        · cases e
      · show (1 : Int) ≤ _
        exact_mod_cast hpos
      · show _ ≤ (5 : Int)
        exact_mod_cast h5
      · intro hnone
        obtain ⟨r, _, _, h3, h4⟩ := hT.root (fun a b hab => ⟨hab.1, hab.2.1⟩) adj4_symm (s := (0, 0))
          (mem_pixels.2 ⟨by omega, by omega⟩) grid_connected
        have e := h3 _ hreg hnone
        have : T.size (T.lab p) = 32 := by
          rw [hT.size_card hreg, e, Finset.filter_true_of_mem (fun q hq => h4 q hq), hcard]
        omega
      · intro h0
        exact absurd h0 (by show ¬ (0 : ℚ) ≤ -1; norm_num)
    rintro (rfl | rfl | rfl)
    · exact sel _ (by decide) (by rw [(hook_dark hT (.inl rfl)).2.2]; omega)
    · exact sel _ (by decide) (by rw [(hook_dark hT (.inr rfl)).2.2]; omega)
    · exact sel _ (by decide) (by rw [(hook_mid hT).2.2]; omega)

/-- The first of the two dark pixels is swallowed by the three pixels together, the other is not. -/
theorem hook_kept {above near : ι → ι → Prop} {x y z : ι} {gs : List (List ι × ι)}
    (h : Grouping above near [x, y, z] gs) (h1 : above x z) (h2 : near x z) (h3 : ¬ above x y) (h4 : ¬ above z y)
    (hxy : x ≠ y) (hzy : z ≠ y) (hxz : x ≠ z) : x ∉ kept gs ∧ y ∈ kept gs := by
  classical
  obtain ⟨m, e, A, B, g1, rfl, hA, hm, he, hB, hrest⟩ := Grouping.inv h
  have eA : A = [x, z] := by
    rw [hA, List.filter_cons_of_neg (by simp [h3]), List.filter_cons_of_pos (by simp [h1, h2])]
    rfl
  rw [eA] at hm he hB hrest
  obtain rfl : z = m := by simpa using hm
  obtain rfl : z = e := by simpa using he
  have eB : B = [] := by
    rw [hB, if_neg (by simp), List.filter_cons_of_neg (by simp [h4]), List.filter_cons_of_neg (by simp)]
    rfl
  rw [eB, List.append_nil, List.filter_cons_of_pos (by simp [Ne.symm hxy, Ne.symm hzy]),
    List.filter_cons_of_neg (by simp)] at hrest
  obtain ⟨m', e', A', B', g2, rfl, hA', hm', he', hB', hrest'⟩ := Grouping.inv hrest
  have eA' : A' = [y] := by rw [hA']; rfl
  rw [eA'] at hm' hB' hrest'
  obtain rfl : y = m' := by simpa using hm'
  have eB' : B' = [] := by rw [hB']; rfl
  rw [eB'] at hrest'
  have eg : g2 = [] := by
    have : Grouping above near ([] : List ι) g2 := hrest'
    cases this; rfl
  rw [eg]
  unfold kept
  simp [hxz, hxy]

/-- How three candidates are listed. -/
theorem three_order {gray : Nat × Nat → Nat} {arr : List (Nat × Nat)} {x y z : Nat × Nat} (hp : arr.Perm [x, y, z])
    (hrel : arr.Pairwise fun a b => gray a ≤ gray b)
    (hst : (arr.filter fun r => decide (gray r = 1)).Pairwise fun a b => a.1 ≤ b.1)
    (gx : gray x = 1) (gy : gray y = 1) (gz : 1 < gray z) (hlt : x.1 < y.1) : arr = [x, y, z] := by
  have hx : x ∈ arr := hp.mem_iff.2 (by simp)
  obtain ⟨A, B, rfl⟩ := List.append_of_mem hx
  have hAB : (A ++ B).Perm [y, z] := List.Perm.cons_inv (List.perm_middle.symm.trans hp)
  rw [List.pairwise_append] at hrel
  rw [List.filter_append, List.pairwise_append] at hst
  have hA : A = [] := by
    rw [List.eq_nil_iff_forall_not_mem]
    intro a ha
    have h1 : a ∈ [y, z] := hAB.mem_iff.1 (by simp [ha])
    have h2 := hrel.2.2 a ha x (by simp)
    simp only [List.mem_cons, List.not_mem_nil, or_false] at h1
    rcases h1 with rfl | rfl
    · have := hst.2.2 a (by simp [ha, gy]) x (by simp [gx])
      omega
    · omega
  subst hA
  simp only [List.nil_append] at hAB hrel ⊢
  have hB : B = [y, z] := by
    have hy : y ∈ B := hAB.mem_iff.2 (by simp)
    obtain ⟨C, D, rfl⟩ := List.append_of_mem hy
    have hCD : (C ++ D).Perm [z] := List.Perm.cons_inv (List.perm_middle.symm.trans hAB)
    have hlen := hCD.length_eq
    have hpp := (List.pairwise_cons.1 hrel.2.1).2
    rw [List.pairwise_append] at hpp
    cases C with
    | nil =>
      have : D = [z] := List.perm_singleton.1 hCD
      rw [this]; rfl
    | cons c C =>
      exfalso
      have hc : c ∈ [z] := hCD.mem_iff.1 (by simp)
      simp only [List.mem_cons, List.not_mem_nil, or_false] at hc
      have := hpp.2.2 c (by simp) y (by simp)
      rw [hc] at this
      omega
  rw [hB]

/-- What is reported of the image depends on which dark pixel is in the earlier patch. -/
theorem hook_outcome {n hp vp fuel m : Nat} {ms : Nat → MSt} (hP : PatchTrees n hp vp 8 4 hookImg 0 ms)
    {W : World (Nat × Nat)} {out : Recognized (Nat × Nat)}
    (hT : IsComponentTree (Adj4 8 4) (fun p => hookImg p.1 p.2) (pixels 8 4) (mergedTree n hp vp 8 4 ms fuel W))
    (hreg : ∀ r, (mergedTree n hp vp 8 4 ms fuel W).isReg r → isPatchReg n ms r)
    (hO : Outcome (treeOf (mergedTree n hp vp 8 4 ms fuel W) (isPatchReg n ms) m) hookCfg true (allRegs n (patchRegs ms)) out)
    {p q : Nat × Nat} (hpq : p = (3, 1) ∧ q = (4, 0) ∨ p = (4, 0) ∧ q = (3, 1))
    (hlt : patchOf hp vp 8 4 p < patchOf hp vp 8 4 q) :
    (mergedTree n hp vp 8 4 ms fuel W).lab p ∉ out.reported ∧ (mergedTree n hp vp 8 4 ms fuel W).lab q ∈ out.reported := by
  classical
  generalize hTe : mergedTree n hp vp 8 4 ms fuel W = T at *
  have hok : T.Ok := hT.ok (fun p _ => by rcases hook_val p with h | h | h <;> omega)
  have hdp : p = (3, 1) ∨ p = (4, 0) := hpq.imp And.left And.left
  have hdq : q = (3, 1) ∨ q = (4, 0) := by
    rcases hpq with ⟨_, h⟩ | ⟨_, h⟩
    · exact .inr h
    · exact .inl h
  have hne : p ≠ q := by rcases hpq with ⟨rfl, rfl⟩ | ⟨rfl, rfl⟩ <;> decide
  have hpx : p ∈ pixels 8 4 := by rcases hdp with rfl | rfl <;> decide
  have hqx : q ∈ pixels 8 4 := by rcases hdq with rfl | rfl <;> decide
  obtain ⟨up, gp, sp⟩ := hook_dark hT hdp
  obtain ⟨uq, gq, sq⟩ := hook_dark hT hdq
  obtain ⟨um, gm, sm⟩ := hook_mid hT
  have hmx : (3, 0) ∈ pixels 8 4 := by decide
  -- a dark pixel's region lies in the patch of the pixel
  have hpatch : ∀ x ∈ pixels 8 4, (∀ y ∈ pixels 8 4, T.Under (T.lab x) y ↔ y = x) → (T.lab x).1 = patchOf hp vp 8 4 x := by
    intro x hx hu
    obtain ⟨y, hy, e1, e2⟩ := region_pixel (fuel := fuel) (W := W) hP (by rw [hTe]; exact hT.lab_reg x hx)
    rw [hTe] at e1
    have : y = x := (hu y hy).1 (by rw [← e1]; exact .refl)
    rw [← e2, this]
  have hpl : (T.lab p).1 < (T.lab q).1 := by rw [hpatch p hpx up, hpatch q hqx uq]; exact hlt
  obtain ⟨arr, gs, hA, hG, hrep, _, _⟩ := hO.found
  have hmem : ∀ r, r ∈ arr ↔ r = T.lab p ∨ r = T.lab q ∨ r = T.lab (3, 0) := by
    intro r
    rw [hA.mem]
    have h1 : (T.isReg r ∧ ¬ finalBad (treeOf T (isPatchReg n ms) m) hookCfg true r) ↔ Selected T (limits hookCfg) r :=
      selected_iff hok hreg rounding_id (by norm_num [hookCfg])
    have h2 := hook_selected hT r
    refine (h1.trans h2).trans ?_
    rcases hpq with ⟨rfl, rfl⟩ | ⟨rfl, rfl⟩
    · exact Iff.rfl
    · exact or_left_comm
  have npq : T.lab p ≠ T.lab q := by
    intro e
    exact hne ((up q hqx).1 (by rw [e]; exact .refl)).symm
  have npm : T.lab p ≠ T.lab (3, 0) := by intro e; rw [e] at gp; omega
  have nqm : T.lab q ≠ T.lab (3, 0) := by intro e; rw [e] at gq; omega
  -- the order of the candidates
  have hperm : arr.Perm [T.lab p, T.lab q, T.lab (3, 0)] := by
    refine (List.perm_ext_iff_of_nodup hA.nodup ?_).2 fun r => ?_
    · simp [npq, npm, nqm]
    · rw [hmem]; simp
  have hordq : (allRegs n (patchRegs ms)).Pairwise fun x y => x.1 ≤ y.1 := by
    unfold allRegs
    rw [List.pairwise_flatMap]
    refine ⟨fun k _ => ?_, ?_⟩
    · refine List.Pairwise.imp_of_mem (R := fun _ _ => True) ?_ (List.pairwise_of_forall (fun _ _ => trivial))
      intro a b ha hb _
      rw [(mem_patchRegs.1 ha).1, (mem_patchRegs.1 hb).1]
    · refine List.pairwise_lt_range.imp ?_
      intro a b hab x hx y hy
      rw [(mem_patchRegs.1 hx).1, (mem_patchRegs.1 hy).1]
      omega
  have hrel : arr.Pairwise fun x y => T.gray x ≤ T.gray y := hA.sorted
  have hst : (arr.filter fun r => decide (T.gray r = 1)).Pairwise fun x y => x.1 ≤ y.1 := by
    obtain ⟨pp, _, e⟩ := hA.stable 1
    have e : arr.filter (fun r => decide (T.gray r = 1)) = (allRegs n (patchRegs ms)).filter pp := e
    rw [e]
    exact hordq.filter _
  have harr : arr = [T.lab p, T.lab q, T.lab (3, 0)] :=
    three_order hperm hrel hst (by omega) gq (by omega) hpl
  rw [harr] at hG
  have hab : T.Above (T.lab p) (T.lab (3, 0)) := by
    have hu : T.Under (T.lab (3, 0)) p := (um p hpx).2 (.inr hdp)
    rcases Relation.reflTransGen_iff_eq_or_transGen.1 hu with e | e
    · exact absurd e.symm npm
    · exact e
  have hk := hook_kept hG hab ⟨?_, ?_⟩ ?_ ?_ npq (Ne.symm nqm) npm
  · rw [hrep]
    refine ⟨fun h => hk.1 (by have := (List.mem_filter.1 h).2; simpa using this), ?_⟩
    refine List.mem_filter.2 ⟨by rw [harr]; simp, ?_⟩
    have := hk.2
    simpa using this
  · show ((T.size (T.lab (3, 0)) : Nat) : Int) ≤ 5
    rw [sm]; decide
  · show (((T.size (T.lab (3, 0)) : Int) - (T.size (T.lab p) : Int) : Int) : ℚ) / ((T.size (T.lab p) : Int) : ℚ) ≤ 2
    rw [sm, sp]; norm_num
  · intro h
    have := (above_reg hok (hT.lab_reg p hpx) h).2
    omega
  · intro h
    have := (above_reg hok (hT.lab_reg _ hmx) h).2
    omega

/-- **C70** is false of the code for large thresholds: with threshold 2, V2 reports the dark pixel (3,1) as a region of
its own when it runs with 32 threads but not when it runs with four. -/
theorem C70_threads_matter (var : Nat × Nat → ℚ) (msize exceed : Nat) : ∃ T T' out out',
    Detected hookCfg 8 4 hookImg 0 T out ∧ Detected hookCfg 8 4 hookImg 0 T' out' ∧
      Delivered (pixels 8 4) T out.reported {(3, 1)} 1 ∧ ¬ Delivered (pixels 8 4) T' out'.reported {(3, 1)} 1 := by
  classical
  obtain ⟨ms, hP⟩ := patchTrees_exist (n := 32) (hp := 8) (vp := 4) rfl (by decide) (by decide) hook_ok (by decide) (by decide)
  obtain ⟨ms', hP'⟩ := patchTrees_exist (n := 4) (hp := 2) (vp := 2) rfl (by decide) (by decide) hook_ok (by decide) (by decide)
  obtain ⟨W, h1, h2, h3, h4⟩ := held_after_merge hP (le_refl _)
  obtain ⟨W', h1', h2', h3', h4'⟩ := held_after_merge hP' (le_refl _)
  obtain ⟨m, hm, hT, hR, hreg, hfresh⟩ := h3.use
  obtain ⟨m', hm', hT', hR', hreg', hfresh'⟩ := h3'.use
  have hB := patch_blocks (n := 32) (ms := ms)
  have hB' := patch_blocks (n := 4) (ms := ms')
  obtain ⟨out, e, hO⟩ := recognizeParallel_spec (cfg := hookCfg) (pidx := Prod.fst) hT rounding_id h4 hm hB.all.1
    (fun r hr => (hB.all.2 r).1 hr) (fun r hr => (hB.all.2 r).2 (hreg r hr)) (hR var) (hfresh var) msize exceed
  obtain ⟨out', e', hO'⟩ := recognizeAccel_spec (cfg := hookCfg) (pidx := Prod.fst)
    (cap := fun k => (pinfo 2 2 8 4 k).width * (pinfo 2 2 8 4 k).height + 257) hT' rounding_id rounding_id h4' hm' hB'.all.1
    (fun r hr => (hB'.all.2 r).1 hr) (fun r hr => (hB'.all.2 r).2 (hreg' r hr))
    (fun k hk r hr => by rw [hB'.mem k hk]; exact ⟨fun e => ⟨hr, e⟩, fun e => e.2⟩) (patch_regs_fit hP') (hR' var)
    (hfresh' var) msize exceed
  simp only [Nat.xor_zero] at h2 h2'
  have a1 := (hook_outcome hP h2 hreg hO (p := (4, 0)) (q := (3, 1)) (.inr ⟨rfl, rfl⟩) (by decide)).2
  have a2 := (hook_outcome hP' h2' hreg' hO' (p := (3, 1)) (q := (4, 0)) (.inl ⟨rfl, rfl⟩) (by decide)).1
  refine ⟨_, _, out, out', .many var hP (le_refl _) h1 e, .four var hP' (le_refl _) h1' e', ?_, ?_⟩
  · obtain ⟨u, g, _⟩ := hook_dark h2 (p := (3, 1)) (.inl rfl)
    refine ⟨_, a1, g, fun q => ?_⟩
    rw [Finset.mem_singleton]
    constructor
    · rintro rfl; exact ⟨by decide, .refl⟩
    · rintro ⟨hq, h⟩; exact (u q hq).1 h
  · rintro ⟨r, hr, hg, hs⟩
    have hu : (mergedTree 4 2 2 8 4 ms' (512 * joinCount 4 2 2 8 4) W').Under r (3, 1) := ((hs (3, 1)).1 (by simp)).2
    obtain ⟨u, g, _⟩ := hook_dark h2' (p := (3, 1)) (.inl rfl)
    have hreg2 := h2'.lab_reg (3, 1) (by decide)
    rcases Relation.reflTransGen_iff_eq_or_transGen.1 hu with e | e
    · rw [e] at hr; exact a2 hr
    · have := (above_reg h3'.ok hreg2 e).2
      omega

end Verif.Props
