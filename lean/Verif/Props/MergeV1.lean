import Verif.Proof.WholeV1

/-!
# Properties C15 (V1), C30, C62, C64–C66: the whole image in Fast MSER V1

The image is `img x y`, of size `w × h`; `gm` is the gray mask; `eight` is 8-neighbour mode; `n` is the number of
threads, and of patches, `hp × vp`.  `v k` is the state in which the flooding of patch `k` ends and `M` the memory
after all joins.
-/

namespace Verif.Props

open Verif.Spec Verif.Partition
open Verif.V1 (Point Mem patchV1 geoV1 AdjV1 joinedV1 joinsV1 mergeTreesV1 memV1 MixedAdj)

variable {eight : Bool} {n hp vp w h : Nat} {img : Nat → Nat → Nat} {gm : Nat} {pk : Nat → Nat → Point}
  {border : Nat → Nat → Nat → Option Nat} {v : Nat → V1.St} {pts : Nat → Point} {steps : Nat → Nat} {fuel bound : Nat}

/-! ### The result -/

/-- The flooding of every patch has ended.  The points of patch `k` start at `pointBase`; `pk` and `border` are
what the patches find in the arrays. -/
def AllEnded (eight : Bool) (n hp vp w h : Nat) (img : Nat → Nat → Nat) (gm : Nat) (pk : Nat → Nat → Point)
    (border : Nat → Nat → Nat → Option Nat) (steps : Nat → Nat) (v : Nat → V1.St) : Prop :=
  ∀ k < n, V1.run
    (patchV1 eight (pinfo hp vp w h k).width (pinfo hp vp w h k).height (subImage img (pinfo hp vp w h k)) gm)
    (geoV1 (pinfo hp vp w h k).width (pinfo hp vp w h k).height (pinfo hp vp w h k).left (pinfo hp vp w h k).top
      (joinedV1 n k)) (steps k)
    (V1.init (patchV1 eight (pinfo hp vp w h k).width (pinfo hp vp w h k).height (subImage img (pinfo hp vp w h k)) gm)
      (pointBase (pinfo hp vp w h) k) (pk k) (border k)) = .done (v k)

/-- The tree that later stages read from the memory: regions are pairs of patch and index, those marked as merged
are skipped.  V1 stores no label of a pixel; `lab` is the one its patch would give. -/
def mergedTreeV1 (n : Nat) (v : Nat → V1.St) (lab : Nat × Nat → Nat × Nat) (fuel : Nat) (M : Mem (Nat × Nat)) :
    RegionTree (Nat × Nat) (Nat × Nat) :=
  Connect.forestTree fuel (fun kr => kr.1 < n ∧ kr.2 < (v kr.1).nreg) lab M.forest

/-- The position of a point in the array of points. -/
def posIn (M : Mem (Nat × Nat)) (p : Nat) : Nat × Nat := ((M.pts p).x, (M.pts p).y)

/-- All that is known after all joins: `T` is the tree, `L r` the list of points of region `r`. -/
structure MergedV1 (adj : Nat × Nat → Nat × Nat → Prop) (w h : Nat) (img : Nat → Nat → Nat) (gm : Nat)
    (M : Mem (Nat × Nat)) (T : RegionTree (Nat × Nat) (Nat × Nat)) (L : Nat × Nat → List Nat) : Prop where
  tree : IsComponentTree adj (fun p => img p.1 p.2 ^^^ gm) (pixels w h) T
  run : ∀ r, T.isReg r → IsRun (fun p => (M.pts p).next) (fun p => (M.pts p).prev) (L r) (some (M.regs r).head)
    (some (M.regs r).tail)
  size : ∀ r, T.isReg r → (M.regs r).size = (L r).length ∧ (M.regs r).unmerged = (L r).length
  nodup : ∀ r, T.isReg r → ((L r).map (posIn M)).Nodup
  mem : ∀ r, T.isReg r → ∀ q, q ∈ (L r).map (posIn M) ↔ q ∈ pixels w h ∧ T.Under r q
  sub : ∀ r, T.isReg r → ∀ r', T.parent r = some r' → L r <:+: L r'
  rect : ∀ r, T.isReg r → V1.Tight M.pts (L r) (M.regs r).rect
  pure : ∀ r, T.isReg r → ∀ p ∈ L r, (M.pts p).ref = none

theorem patchV1_imageOK (hl : layoutV1 n = some (hp, vp)) (hw : hp ≤ w) (hh : vp ≤ h)
    (hI : ImageOK w h img gm) {k : Nat} (hk : k < n) :
    ImageOK (pinfo hp vp w h k).width (pinfo hp vp w h k).height (subImage img (pinfo hp vp w h k)) gm := by
  obtain ⟨hn, hhp, hvp, _⟩ := layoutV1_cases (w := w) (h := h) hl
  have hin := pinfo_inside (w := w) (h := h) hhp (by rw [← hn]; exact hk)
  exact ⟨lengths_pos hhp hw, lengths_pos hvp hh, fun x y hx hy => hI.img_lt _ _ (by omega) (by omega), hI.gm_lt⟩

theorem mergedV1_str (hl : layoutV1 n = some (hp, vp)) (hw : hp ≤ w) (hh : vp ≤ h) (hI : ImageOK w h img gm)
    (hr : AllEnded eight n hp vp w h img gm pk border steps v) (hb : 513 ≤ bound)
    (hf : bound * ((hp - 1) * h + (vp - 1) * w + 1) ≤ fuel) :
    ∃ M lab L, mergeTreesV1 n hp vp w h img gm v pts fuel bound = some M ∧
      MergedV1 (MixedAdj eight hp vp w h) w h img gm M (mergedTreeV1 n v lab fuel M) L ∧
      ∃ m, Connect.Str (fun kr => kr.1 < n ∧ kr.2 < (v kr.1).nreg) (fun r => (M.forest r).gray) M.forest m ∧
        m ≤ fuel := by
  obtain ⟨hn, hhp, hvp, _⟩ := layoutV1_cases (w := w) (h := h) hl
  have hex : ∀ k, ∃ lab L, k < n → FloodedV1 eight (pinfo hp vp w h k).width (pinfo hp vp w h k).height
      (subImage img (pinfo hp vp w h k)) gm (pinfo hp vp w h k).left (pinfo hp vp w h k).top (joinedV1 n k)
      (pointBase (pinfo hp vp w h) k) (pk k) (v k) lab L := by
    intro k
    by_cases hk : k < n
    · obtain ⟨lab, L, hF⟩ := floodedV1 (patchV1_imageOK hl hw hh hI hk) (hr k hk)
      exact ⟨lab, L, fun _ => hF⟩
    · exact ⟨fun _ => 0, fun _ => [], fun h => absurd h hk⟩
  choose lab L hF using hex
  subst hn
  have hg : ∀ p ∈ pixels w h, gval img gm p < 256 := by
    intro p hp'
    rw [mem_pixels] at hp'
    exact Nat.xor_lt_two_pow (n := 8) (hI.img_lt _ _ hp'.1 hp'.2) hI.gm_lt
  have hA : V1.AllFlooded eight hp vp w h img gm pk v lab L := hF
  obtain ⟨M, h1, hV, hX, hm⟩ := V1.merge_v1 (pts := pts) hl hw hh hA hg hb hf
  have hL := Connect.init_lab (V1.allFlooded hhp hvp hg hA)
  have hP := V1.points2 (pts := pts) hhp hvp hA
  obtain ⟨L', hS⟩ := hV.lists
  have hpos : V1.ptPos (memV1 (hp * vp) (pinfo hp vp w h) v pts) = posIn M := by
    funext p; unfold V1.ptPos posIn; rw [hX.x p, hX.y p]
  have hinn : ∀ q, ¬ V1.Inn M.forest [] q := by rintro q ⟨X, hX, _⟩; simp at hX
  refine ⟨M, (V1.ctxV1 hp vp w h img gm v lab).lab, L', h1, ?_, M.merges, ?_, hm⟩
  rotate_left
  · have hs : Connect.Str (fun kr => kr.1 < hp * vp ∧ kr.2 < (v kr.1).nreg) (V1.ctxV1 hp vp w h img gm v lab).gr
        M.forest M.merges := hV.good.done.str
    have e : (fun r => (M.forest r).gray) = (V1.ctxV1 hp vp w h img gm v lab).gr := funext hs.gray
    rw [e]; exact hs
  obtain ⟨_, _, hreal, _, hunder⟩ := hV.good.view hL hm
  have htree : IsComponentTree (MixedAdj eight hp vp w h) (fun p => img p.1 p.2 ^^^ gm) (pixels w h)
      (mergedTreeV1 (hp * vp) v (V1.ctxV1 hp vp w h img gm v lab).lab fuel M) := hV.good.tree hL hm
  constructor
  · exact htree
  · rintro r ⟨hr1, hr2⟩
    have hh := hS.head r hr1 hr2
    refine ⟨?_, hh, hS.quiet r hr1 hr2 (hinn r) (by simp), hS.linked r hr1 hr2⟩
    intro e; rw [e] at hh; simp at hh
  · rintro r ⟨hr1, hr2⟩
    obtain ⟨a, b⟩ := hS.sizeOut r hr1 hr2 (hinn r)
    rw [V1.due_nil] at a b
    constructor <;> omega
  · rintro r ⟨hr1, hr2⟩
    rw [← hpos]
    refine List.Nodup.map_on ?_ (hS.nodup r hr1 hr2)
    intro p hp q hq e
    exact hP.inj p q ((hS.mem r hr1 hr2 p).1 hp).1 ((hS.mem r hr1 hr2 q).1 hq).1 e
  · rintro r ⟨hr1, hr2⟩ q
    rw [← hpos, List.mem_map]
    constructor
    · rintro ⟨p, hp', rfl⟩
      obtain ⟨d1, d2, _⟩ := (hS.mem r hr1 hr2 p).1 hp'
      have hpx := hP.px p d1
      exact ⟨hpx, (hunder r hr2 _ hpx).2 d2⟩
    · rintro ⟨hq, hu⟩
      obtain ⟨p, d1, rfl⟩ := hP.surj q hq
      exact ⟨p, (hS.mem r hr1 hr2 p).2 ⟨d1, (hunder r hr2 _ hq).1 hu, by simp⟩, rfl⟩
  · rintro r ⟨hr1, hr2⟩ r' hpar
    obtain ⟨k1, k2, _, k3⟩ := hreal r hr1 hr2 r' hpar
    exact hS.sub r hr1 hr2 r' k1 k2 k3 (by simp)
  · rintro r ⟨hr1, hr2⟩
    have hC := hS.rectOut r hr1 hr2 (hinn r)
    have hno : ∀ a, (a ∈ L' r ∨ ((∃ e ∈ ([] : List (Option (Nat × Nat) × Int)), Connect.UpO M.forest e.1 r) ∧
        ∃ X ∈ ([] : List (Nat × Nat)), a ∈ L' X)) → a ∈ L' r := by
      rintro a (h | ⟨⟨e, he, _⟩, _⟩)
      · exact h
      · simp at he
    refine ⟨hC.inside, ?_, ?_, ?_, ?_⟩
    · obtain ⟨a, ha, e⟩ := hC.left; exact ⟨a, hno a ha, e⟩
    · obtain ⟨a, ha, e⟩ := hC.right; exact ⟨a, hno a ha, e⟩
    · obtain ⟨a, ha, e⟩ := hC.top; exact ⟨a, hno a ha, e⟩
    · obtain ⟨a, ha, e⟩ := hC.bottom; exact ⟨a, hno a ha, e⟩
  · rintro r ⟨hr1, hr2⟩ p hp'
    by_contra hc
    obtain ⟨d1, _⟩ := (hS.mem r hr1 hr2 p).1 hp'
    obtain ⟨_, X, hX, _⟩ := hS.refs p d1 hc
    simp at hX

theorem mergedV1 (hl : layoutV1 n = some (hp, vp)) (hw : hp ≤ w) (hh : vp ≤ h) (hI : ImageOK w h img gm)
    (hr : AllEnded eight n hp vp w h img gm pk border steps v) (hb : 513 ≤ bound)
    (hf : bound * ((hp - 1) * h + (vp - 1) * w + 1) ≤ fuel) :
    ∃ M lab L, mergeTreesV1 n hp vp w h img gm v pts fuel bound = some M ∧
      MergedV1 (MixedAdj eight hp vp w h) w h img gm M (mergedTreeV1 n v lab fuel M) L := by
  obtain ⟨M, lab, L, h1, h2, _⟩ := mergedV1_str (pts := pts) hl hw hh hI hr hb hf
  exact ⟨M, lab, L, h1, h2⟩

/-! ### Non-vacuity -/

theorem patchV1_grayCount (hl : layoutV1 n = some (hp, vp)) {gm k : Nat} (hk : k < n) :
    grayCount (pinfo hp vp w h k).width (pinfo hp vp w h k).height (subImage img (pinfo hp vp w h k)) gm
      ≤ grayCount w h img gm := by
  obtain ⟨hn, hhp, hvp, _⟩ := layoutV1_cases (w := w) (h := h) hl
  have hin := pinfo_inside (w := w) (h := h) hhp (by rw [← hn]; exact hk)
  refine Finset.card_le_card ?_
  intro v hv
  obtain ⟨p, hp', rfl⟩ := Finset.mem_image.1 hv
  rw [mem_pixels] at hp'
  refine Finset.mem_image.2 ⟨((pinfo hp vp w h k).left + p.1, (pinfo hp vp w h k).top + p.2), ?_, rfl⟩
  rw [mem_pixels]; simp only; omega

/-- **C64** With fewer than 256 different gray values the flooding of all patches ends. -/
theorem C64_all_patches_end (hl : layoutV1 n = some (hp, vp)) (hw : hp ≤ w) (hh : vp ≤ h) (hI : ImageOK w h img gm)
    (hgc : grayCount w h img gm < 256) :
    ∃ v, AllEnded eight n hp vp w h img gm pk border
      (fun k => (if eight then 9 else 5) * ((pinfo hp vp w h k).width * (pinfo hp vp w h k).height)) v := by
  have hex : ∀ k, ∃ s, k < n → V1.makeTreePatch eight (pinfo hp vp w h k).width (pinfo hp vp w h k).height
      (subImage img (pinfo hp vp w h k)) gm (pinfo hp vp w h k).left (pinfo hp vp w h k).top (joinedV1 n k)
      (pointBase (pinfo hp vp w h) k) (pk k) (border k) = .done s := by
    intro k
    by_cases hk : k < n
    · obtain ⟨s, hs⟩ := (C61_exact_step_count (eight := eight) (left := (pinfo hp vp w h k).left)
        (top := (pinfo hp vp w h k).top) (joined := joinedV1 n k) (base := pointBase (pinfo hp vp w h) k) (pts := pk k)
        (border := border k) (patchV1_imageOK hl hw hh hI hk) (lt_of_le_of_lt (patchV1_grayCount hl hk) hgc)).1
      exact ⟨s, fun _ => hs⟩
    · exact ⟨V1.init (patchV1 eight w h img gm) 0 (pk k) (border k), fun h => absurd h hk⟩
  choose v hv using hex
  exact ⟨v, hv⟩

/-- A 3×2 image on two threads meets the hypotheses of the theorems below, in both modes. -/
example : ∃ v, AllEnded eight 2 2 1 3 2 sampleImg 0 pk border
    (fun k => (if eight then 9 else 5) * ((pinfo 2 1 3 2 k).width * (pinfo 2 1 3 2 k).height)) v :=
  C64_all_patches_end rfl (by decide) (by decide) sampleOK (by decide)

example : layoutV1 2 = some (2, 1) ∧ 2 ≤ 3 ∧ 1 ≤ 2 ∧ 513 * ((2 - 1) * 2 + (1 - 1) * 3 + 1) ≤ 2000 := by decide

/-! ### C64 -/

theorem mixed_four : MixedAdj false hp vp w h = Adj4 w h := by
  funext x y
  apply propext
  unfold MixedAdj AdjV1
  simp only [Bool.false_eq_true, if_false]
  constructor
  · rintro (h | h) <;> exact h.1
  · intro hx
    by_cases c : patchOf hp vp w h x = patchOf hp vp w h y
    · exact .inl ⟨hx, c⟩
    · exact .inr ⟨hx, c⟩

theorem mixed_single {k : Nat} (hk : ∀ p ∈ pixels w h, patchOf hp vp w h p = k) :
    MixedAdj true hp vp w h = Adj8 w h := by
  funext x y
  apply propext
  unfold MixedAdj AdjV1
  simp only [if_true]
  constructor
  · rintro (h | ⟨h1, h2⟩)
    · exact h.1
    · exact absurd ((hk x h1.1).trans (hk y h1.2.1).symm) h2
  · intro hx
    exact .inl ⟨hx, (hk x hx.1).trans (hk y hx.2.1).symm⟩

/-- **C64** In 4-neighbour mode, for every thread number of V1 (1, 2, 4, 8, 16, 32): all joins are made and end, and
the regions are then the component tree of the whole image under 4-adjacency. -/
theorem C64_tree_of_whole_image (hl : layoutV1 n = some (hp, vp)) (hw : hp ≤ w) (hh : vp ≤ h) (hI : ImageOK w h img gm)
    (hr : AllEnded false n hp vp w h img gm pk border steps v) (hb : 513 ≤ bound)
    (hf : bound * ((hp - 1) * h + (vp - 1) * w + 1) ≤ fuel) :
    ∃ M lab, mergeTreesV1 n hp vp w h img gm v pts fuel bound = some M ∧
      IsComponentTree (Adj4 w h) (fun p => img p.1 p.2 ^^^ gm) (pixels w h) (mergedTreeV1 n v lab fuel M) := by
  obtain ⟨M, lab, L, h1, h2⟩ := mergedV1 (pts := pts) hl hw hh hI hr hb hf
  rw [mixed_four] at h2
  exact ⟨M, lab, h1, h2.tree⟩

/-- **C64** In 4-neighbour mode the tree built with `n` threads is the tree built with `n'` threads: the same
components, gray levels, sizes and parents. -/
theorem C64_same_for_all_thread_numbers (hI : ImageOK w h img gm)
    (hl : layoutV1 n = some (hp, vp)) (hw : hp ≤ w) (hh : vp ≤ h)
    (hr : AllEnded false n hp vp w h img gm pk border steps v) (hb : 513 ≤ bound)
    (hf : bound * ((hp - 1) * h + (vp - 1) * w + 1) ≤ fuel)
    {n' hp' vp' : Nat} {pk' : Nat → Nat → Point} {border' : Nat → Nat → Nat → Option Nat} {v' : Nat → V1.St}
    {pts' : Nat → Point} {steps' : Nat → Nat} {fuel' bound' : Nat}
    (hl' : layoutV1 n' = some (hp', vp')) (hw' : hp' ≤ w) (hh' : vp' ≤ h)
    (hr' : AllEnded false n' hp' vp' w h img gm pk' border' steps' v') (hb' : 513 ≤ bound')
    (hf' : bound' * ((hp' - 1) * h + (vp' - 1) * w + 1) ≤ fuel') :
    ∃ M M' lab lab' f, mergeTreesV1 n hp vp w h img gm v pts fuel bound = some M ∧
      mergeTreesV1 n' hp' vp' w h img gm v' pts' fuel' bound' = some M' ∧
      SameTree (pixels w h) (mergedTreeV1 n v lab fuel M) (mergedTreeV1 n' v' lab' fuel' M') f := by
  obtain ⟨M, lab, h1, h2⟩ := C64_tree_of_whole_image (pts := pts) hl hw hh hI hr hb hf
  obtain ⟨M', lab', h1', h2'⟩ := C64_tree_of_whole_image (pts := pts') hl' hw' hh' hI hr' hb' hf'
  obtain ⟨f, hf⟩ := h2.same h2' ⟨(0, 0), mem_pixels.2 ⟨hI.w_pos, hI.h_pos⟩⟩
  exact ⟨M, M', lab, lab', f, h1, h1', hf⟩

theorem heap_one : 0 + (w * h + 257) ≤ heapSize 1 w h := by
  unfold heapSize
  have := Nat.mul_comm h w
  omega

/-- **C64** In 4-neighbour mode V1, with any number of threads, builds the same tree as V2 with one thread (dark
regions). -/
theorem C64_same_as_v2 (hI : ImageOK w h img 0) (hc : w * h ≤ 2 ^ 29)
    (hl : layoutV1 n = some (hp, vp)) (hw : hp ≤ w) (hh : vp ≤ h)
    (hr : AllEnded false n hp vp w h img 0 pk border steps v) (hb : 513 ≤ bound)
    (hf : bound * ((hp - 1) * h + (vp - 1) * w + 1) ≤ fuel)
    {fromMin : Bool} {steps1 : Nat} {b1 : FloodMem.Buf} {ls1 : Nat → Nat} {m1 : FloodMem.MSt} (hb1 : b1.top 0 = 0)
    (hr1 : FloodMem.pass w h img 0 fromMin (heapSize 1 w h) steps1 b1 ls1 = .done m1) :
    ∃ M lab f, mergeTreesV1 n hp vp w h img 0 v pts fuel bound = some M ∧
      SameTree (pixels w h) (memTree w m1) (mergedTreeV1 n v lab fuel M) f := by
  obtain ⟨M, lab, h1, h2⟩ := C64_tree_of_whole_image (pts := pts) hl hw hh hI hr hb hf
  have h3 := C01_memory_holds_component_tree hI hc
    (by rw [hb1]; exact heap_one) hr1
  simp only [Nat.xor_zero] at h2
  obtain ⟨f, hf⟩ := h3.same h2 ⟨(0, 0), mem_pixels.2 ⟨hI.w_pos, hI.h_pos⟩⟩
  exact ⟨M, lab, f, h1, hf⟩

/-- **C64** In 4-neighbour mode V1, with any number of threads, builds the same tree as V2 with one thread (bright
regions, the second pass of V2). -/
theorem C64_bright_same_as_v2 (hI : ImageOK w h img 255) (hc : w * h ≤ 2 ^ 29)
    (hl : layoutV1 n = some (hp, vp)) (hw : hp ≤ w) (hh : vp ≤ h)
    (hr : AllEnded false n hp vp w h img 255 pk border steps v) (hb : 513 ≤ bound)
    (hf : bound * ((hp - 1) * h + (vp - 1) * w + 1) ≤ fuel)
    {s1 s2 : Nat} {b1 : FloodMem.Buf} {ls1 : Nat → Nat} {m1 m2 : FloodMem.MSt} (hb1 : b1.top 0 = 0)
    (hr1 : FloodMem.pass w h img 0 true (heapSize 1 w h) s1 b1 ls1 = .done m1)
    (hr12 : FloodMem.pass w h img 255 true (heapSize 1 w h) s2 m1.toBuf (FloodMem.levelSizes w h img) = .done m2) :
    ∃ M lab f, mergeTreesV1 n hp vp w h img 255 v pts fuel bound = some M ∧
      SameTree (pixels w h) (memTree w m2) (mergedTreeV1 n v lab fuel M) f := by
  obtain ⟨M, lab, h1, h2⟩ := C64_tree_of_whole_image (pts := pts) hl hw hh hI hr hb hf
  have h3 := (C17_bright_pass_builds_tree_of_inverted (⟨hI.w_pos, hI.h_pos, hI.img_lt, by decide⟩) hc
    (by rw [hb1]; exact heap_one) hr1 hr12).1
  obtain ⟨f, hf⟩ := h3.same h2 ⟨(0, 0), mem_pixels.2 ⟨hI.w_pos, hI.h_pos⟩⟩
  exact ⟨M, lab, f, h1, hf⟩

/-! ### C65 -/

/-- **C65** (partial) In 8-neighbour mode with one patch the tree is the one of 8-adjacency; with several patches it
is the one of the graph in which pixels of the same patch are 8-adjacent, and pixels of different patches only
4-adjacent.  (The full property: for every thread number the regions are the components under 8-adjacency.) -/
theorem C65_eight_mode_partial (hl : layoutV1 n = some (hp, vp)) (hw : hp ≤ w) (hh : vp ≤ h) (hI : ImageOK w h img gm)
    (hr : AllEnded true n hp vp w h img gm pk border steps v) (hb : 513 ≤ bound)
    (hf : bound * ((hp - 1) * h + (vp - 1) * w + 1) ≤ fuel) :
    ∃ M lab, mergeTreesV1 n hp vp w h img gm v pts fuel bound = some M ∧
      (n = 1 → IsComponentTree (Adj8 w h) (fun p => img p.1 p.2 ^^^ gm) (pixels w h) (mergedTreeV1 n v lab fuel M)) ∧
      IsComponentTree (fun x y => (Adj8 w h x y ∧ patchOf hp vp w h x = patchOf hp vp w h y) ∨
          (Adj4 w h x y ∧ patchOf hp vp w h x ≠ patchOf hp vp w h y))
        (fun p => img p.1 p.2 ^^^ gm) (pixels w h) (mergedTreeV1 n v lab fuel M) := by
  obtain ⟨M, lab, L, h1, h2⟩ := mergedV1 (pts := pts) hl hw hh hI hr hb hf
  refine ⟨M, lab, h1, fun e => ?_, h2.tree⟩
  obtain ⟨hn, hhp, hvp, _⟩ := layoutV1_cases (w := w) (h := h) hl
  have := h2.tree
  rw [mixed_single (k := 0)] at this
  · exact this
  · intro p hp'
    have := patchOf_lt hhp hvp hp'
    omega

/-- Two dark pixels that touch at a corner. -/
def cornerImg (x y : Nat) : Nat := if x = y then 0 else 9

theorem cornerOK : ImageOK 2 2 cornerImg 0 :=
  ⟨by decide, by decide, fun x y _ _ => by unfold cornerImg; split <;> decide, by decide⟩

/-- **C65** is false of the code: with two threads, the two dark pixels of `cornerImg`, which touch at a corner, get
two regions; whatever the assignment of pixels to regions, the result is not the component tree under
8-adjacency. -/
theorem C65_corner_bridge_lost : ∃ v M, AllEnded true 2 2 1 2 2 cornerImg 0 pk border
      (fun k => 9 * ((pinfo 2 1 2 2 k).width * (pinfo 2 1 2 2 k).height)) v ∧
    mergeTreesV1 2 2 1 2 2 cornerImg 0 v pts 2000 513 = some M ∧
    ∀ lab, ¬ IsComponentTree (Adj8 2 2) (fun p => cornerImg p.1 p.2) (pixels 2 2) (mergedTreeV1 2 v lab 2000 M) := by
  obtain ⟨v, hv⟩ := C64_all_patches_end (eight := true) (n := 2) (hp := 2) (vp := 1) (w := 2) (h := 2) (pk := pk)
    (border := border) rfl (by decide) (by decide) cornerOK (by decide)
  obtain ⟨M, lab, h1, _, hT⟩ := C65_eight_mode_partial (pts := pts) (fuel := 2000) (bound := 513) rfl (by decide)
    (by decide) cornerOK hv (by decide) (by decide)
  refine ⟨v, M, hv, h1, fun lab' hT' => ?_⟩
  have m0 : ((0, 0) : Nat × Nat) ∈ pixels 2 2 := by decide
  have m1 : ((1, 1) : Nat × Nat) ∈ pixels 2 2 := by decide
  have hdark : ∀ p ∈ pixels 2 2, cornerImg p.1 p.2 = 0 → p = (0, 0) ∨ p = (1, 1) := by decide
  -- two regions
  have hne : (mergedTreeV1 2 v lab 2000 M).lab (0, 0) ≠ (mergedTreeV1 2 v lab 2000 M).lab (1, 1) := by
    intro e
    have hg := hT.lab_gray _ m0
    have hc := (hT.comp _ (hT.lab_reg _ m0) _ m0 .refl _ m1).1 (by rw [RegionTree.Under, ← e])
    rw [hg] at hc
    have key : ∀ y, LConn (fun x y => (Adj8 2 2 x y ∧ patchOf 2 1 2 2 x = patchOf 2 1 2 2 y) ∨
          (Adj4 2 2 x y ∧ patchOf 2 1 2 2 x ≠ patchOf 2 1 2 2 y)) (fun p => cornerImg p.1 p.2 ^^^ 0)
          (cornerImg (0, 0).1 (0, 0).2 ^^^ 0) (0, 0) y → y = (0, 0) := by
      intro y hy
      induction hy with
      | refl => rfl
      | @tail a b _ hs ih =>
        subst ih
        obtain ⟨ha, _, hb⟩ := hs
        have hbp : b ∈ pixels 2 2 := by rcases ha with h | h <;> exact h.1.2.1
        have hb0 : cornerImg b.1 b.2 = 0 := by simpa [cornerImg] using hb
        rcases hdark b hbp hb0 with rfl | rfl
        · rfl
        · rcases ha with ⟨_, h⟩ | ⟨h, _⟩
          · revert h; decide
          · have := h.2.2; revert this; decide
    have := key _ hc
    simp at this
  -- but one component
  have r0 := hT.lab_reg _ m0
  have r1 := hT.lab_reg _ m1
  have g0 := hT.lab_gray _ m0
  have g1 := hT.lab_gray _ m1
  generalize (mergedTreeV1 2 v lab 2000 M).lab (0, 0) = a at *
  generalize (mergedTreeV1 2 v lab 2000 M).lab (1, 1) = b at *
  obtain ⟨p, hp, rfl⟩ := hT'.reg_lab a r0
  obtain ⟨q, hq, rfl⟩ := hT'.reg_lab b r1
  have gp := hT'.lab_gray p hp
  have gq := hT'.lab_gray q hq
  have g0' : (mergedTreeV1 2 v lab' 2000 M).gray ((mergedTreeV1 2 v lab' 2000 M).lab p) = 0 := g0
  have g1' : (mergedTreeV1 2 v lab' 2000 M).gray ((mergedTreeV1 2 v lab' 2000 M).lab q) = 0 := g1
  have hpd := hdark p hp (by rw [← gp, g0'])
  have hqd := hdark q hq (by rw [← gq, g1'])
  have hadj : Adj8 2 2 p q := by
    refine ⟨hp, hq, fun e => hne (by rw [e]), ?_⟩
    rcases hpd with rfl | rfl <;> rcases hqd with rfl | rfl <;> decide
  have hu := (hT'.comp _ (hT'.lab_reg p hp) p hp .refl q hq).2
    (.single ⟨hadj, le_of_eq gp.symm, le_of_eq (gq.symm.trans (g1'.trans g0'.symm))⟩)
  rcases Relation.ReflTransGen.cases_head hu with e | ⟨c, hc, hrest⟩
  · exact hne e.symm
  · have hlt := (hT'.parent_reg _ (hT'.lab_reg q hq) c hc)
    have : ∀ z, Relation.ReflTransGen (fun a b => (mergedTreeV1 2 v lab' 2000 M).parent a = some b) c z →
        (mergedTreeV1 2 v lab' 2000 M).isReg z ∧
        (mergedTreeV1 2 v lab' 2000 M).gray c ≤ (mergedTreeV1 2 v lab' 2000 M).gray z := by
      intro z hz
      induction hz with
      | refl => exact ⟨hlt.1, le_refl _⟩
      | tail _ hs ih =>
        have := hT'.parent_reg _ ih.1 _ hs
        exact ⟨this.1, by omega⟩
    have := (this _ hrest).2
    omega

/-! ### C30 -/

/-- **C30** After all joins, for every thread number and in both modes, every region's `m_head` and `m_tail` are the
ends of a doubly linked list of exactly `m_size` points.  The points are different pixels, exactly the pixels of the
region, and none of them is marked as removed. -/
theorem C30_lists_after_joining (hl : layoutV1 n = some (hp, vp)) (hw : hp ≤ w) (hh : vp ≤ h) (hI : ImageOK w h img gm)
    (hr : AllEnded eight n hp vp w h img gm pk border steps v) (hb : 513 ≤ bound)
    (hf : bound * ((hp - 1) * h + (vp - 1) * w + 1) ≤ fuel) :
    ∃ M lab, mergeTreesV1 n hp vp w h img gm v pts fuel bound = some M ∧
      IsComponentTree (MixedAdj eight hp vp w h) (fun p => img p.1 p.2 ^^^ gm) (pixels w h) (mergedTreeV1 n v lab fuel M) ∧
      ∀ r, (mergedTreeV1 n v lab fuel M).isReg r → ∃ l,
        IsRun (fun p => (M.pts p).next) (fun p => (M.pts p).prev) l (some (M.regs r).head) (some (M.regs r).tail) ∧
        (M.regs r).size = l.length ∧
        walk (fun p => (M.pts p).next) (M.regs r).size.toNat (some (M.regs r).head) = some l ∧
        (l.map (posIn M)).Nodup ∧ (∀ p ∈ l, (M.pts p).ref = none) ∧
        ∀ q, q ∈ l.map (posIn M) ↔ q ∈ pixels w h ∧ (mergedTreeV1 n v lab fuel M).Under r q := by
  obtain ⟨M, lab, L, h1, h2⟩ := mergedV1 (pts := pts) hl hw hh hI hr hb hf
  refine ⟨M, lab, h1, h2.tree, fun r hr => ⟨L r, h2.run r hr, (h2.size r hr).1, ?_, h2.nodup r hr, h2.pure r hr, h2.mem r hr⟩⟩
  rw [(h2.size r hr).1, Int.toNat_natCast]
  exact walk_run (h2.run r hr)

/-- **C30** After all joins the list of a region is a contiguous piece of the list of its parent, which is longer. -/
theorem C30_sublists_after_joining (hl : layoutV1 n = some (hp, vp)) (hw : hp ≤ w) (hh : vp ≤ h) (hI : ImageOK w h img gm)
    (hr : AllEnded eight n hp vp w h img gm pk border steps v) (hb : 513 ≤ bound)
    (hf : bound * ((hp - 1) * h + (vp - 1) * w + 1) ≤ fuel) :
    ∃ M, mergeTreesV1 n hp vp w h img gm v pts fuel bound = some M ∧
      ∀ lab r r', (mergedTreeV1 n v lab fuel M).isReg r → (mergedTreeV1 n v lab fuel M).parent r = some r' →
        (mergedTreeV1 n v lab fuel M).isReg r' ∧
        ∃ l l', walk (fun p => (M.pts p).next) (M.regs r).size.toNat (some (M.regs r).head) = some l ∧
          walk (fun p => (M.pts p).next) (M.regs r').size.toNat (some (M.regs r').head) = some l' ∧
          l <:+: l' ∧ l.length < l'.length := by
  obtain ⟨M, lab, L, h1, h2⟩ := mergedV1 (pts := pts) hl hw hh hI hr hb hf
  refine ⟨M, h1, fun lab' r r' hr hp => ?_⟩
  have hr0 : (mergedTreeV1 n v lab fuel M).isReg r := hr
  have hp0 : (mergedTreeV1 n v lab fuel M).parent r = some r' := hp
  have hr' := (h2.tree.parent_reg r hr0 r' hp0).1
  refine ⟨hr', L r, L r', ?_, ?_, h2.sub r hr0 r' hp0, ?_⟩
  · rw [(h2.size r hr0).1, Int.toNat_natCast]; exact walk_run (h2.run r hr0)
  · rw [(h2.size r' hr').1, Int.toNat_natCast]; exact walk_run (h2.run r' hr')
  · have h3 := h2.tree.size_lt hr0 hp0
    have e1 : (mergedTreeV1 n v lab fuel M).size r = (M.regs r).size.toNat := rfl
    have e2 : (mergedTreeV1 n v lab fuel M).size r' = (M.regs r').size.toNat := rfl
    rw [e1, e2, (h2.size r hr0).1, (h2.size r' hr').1] at h3
    omega

/-! ### C62 -/

/-- **C62** After all joins, for every thread number and in both modes, the rectangle stored in a region is the
smallest one containing its pixels. -/
theorem C62_tight_after_joining (hl : layoutV1 n = some (hp, vp)) (hw : hp ≤ w) (hh : vp ≤ h) (hI : ImageOK w h img gm)
    (hr : AllEnded eight n hp vp w h img gm pk border steps v) (hb : 513 ≤ bound)
    (hf : bound * ((hp - 1) * h + (vp - 1) * w + 1) ≤ fuel) :
    ∃ M lab, mergeTreesV1 n hp vp w h img gm v pts fuel bound = some M ∧
      IsComponentTree (MixedAdj eight hp vp w h) (fun p => img p.1 p.2 ^^^ gm) (pixels w h) (mergedTreeV1 n v lab fuel M) ∧
      ∀ r, (mergedTreeV1 n v lab fuel M).isReg r →
        (∀ p ∈ pixels w h, (mergedTreeV1 n v lab fuel M).Under r p →
          (M.regs r).rect.left ≤ p.1 ∧ p.1 ≤ (M.regs r).rect.right ∧
          (M.regs r).rect.top ≤ p.2 ∧ p.2 ≤ (M.regs r).rect.bottom) ∧
        (∃ p ∈ pixels w h, (mergedTreeV1 n v lab fuel M).Under r p ∧ p.1 = (M.regs r).rect.left) ∧
        (∃ p ∈ pixels w h, (mergedTreeV1 n v lab fuel M).Under r p ∧ p.1 = (M.regs r).rect.right) ∧
        (∃ p ∈ pixels w h, (mergedTreeV1 n v lab fuel M).Under r p ∧ p.2 = (M.regs r).rect.top) ∧
        (∃ p ∈ pixels w h, (mergedTreeV1 n v lab fuel M).Under r p ∧ p.2 = (M.regs r).rect.bottom) := by
  obtain ⟨M, lab, L, h1, h2⟩ := mergedV1 (pts := pts) hl hw hh hI hr hb hf
  refine ⟨M, lab, h1, h2.tree, fun r hr => ?_⟩
  have hR := h2.rect r hr
  have back : ∀ a ∈ L r, posIn M a ∈ pixels w h ∧ (mergedTreeV1 n v lab fuel M).Under r (posIn M a) :=
    fun a ha => (h2.mem r hr _).1 (List.mem_map.2 ⟨a, ha, rfl⟩)
  refine ⟨?_, ?_, ?_, ?_, ?_⟩
  · intro p hp hu
    obtain ⟨a, ha, rfl⟩ := List.mem_map.1 ((h2.mem r hr p).2 ⟨hp, hu⟩)
    exact hR.inside a ha
  · obtain ⟨a, ha, e⟩ := hR.left; exact ⟨_, (back a ha).1, (back a ha).2, e⟩
  · obtain ⟨a, ha, e⟩ := hR.right; exact ⟨_, (back a ha).1, (back a ha).2, e⟩
  · obtain ⟨a, ha, e⟩ := hR.top; exact ⟨_, (back a ha).1, (back a ha).2, e⟩
  · obtain ⟨a, ha, e⟩ := hR.bottom; exact ⟨_, (back a ha).1, (back a ha).2, e⟩

/-! ### C15 -/

/-- The pixel an entry of a table stands for: side 0 is left, 1 right, 2 top, 3 bottom. -/
def entryPixel (hp vp w h : Nat) (e : V1.Entry) : Nat × Nat :=
  let P := pinfo hp vp w h e.1
  match e.2.1 with
  | 0 => (P.left, P.top + e.2.2)
  | 1 => (P.left + P.width - 1, P.top + e.2.2)
  | 2 => (P.left + e.2.2, P.top)
  | _ => (P.left + e.2.2, P.top + P.height - 1)

/-- The pairs of pixels joined, in order. -/
def joinPixelsV1 (hp vp w h : Nat) (J : List V1.Join) : List ((Nat × Nat) × (Nat × Nat)) :=
  J.map (fun j => (entryPixel hp vp w h j.1, entryPixel hp vp w h j.2.1))

/-- An entry exists: it belongs to a patch, that patch has a table for that side, and the place lies in it. -/
def EntryOK (n hp vp w h : Nat) (e : V1.Entry) : Prop :=
  e.1 < n ∧ joinedV1 n e.1 e.2.1 = true ∧
    e.2.2 < (if e.2.1 ≤ 1 then (pinfo hp vp w h e.1).height else (pinfo hp vp w h e.1).width)

theorem join_entries (hl : layoutV1 n = some (hp, vp)) (hw : hp ≤ w) (hh : vp ≤ h) {b : V1.Border}
    (hb : V1.BorderOK hp vp b) {i s : Nat} (hi : i < V1.borderSize w h b) :
    entryPixel hp vp w h (V1.mkJoin hp vp w h b (i, s)).1 = (V1.pairOf hp vp w h b i).1 ∧
    entryPixel hp vp w h (V1.mkJoin hp vp w h b (i, s)).2.1 = (V1.pairOf hp vp w h b i).2 ∧
    EntryOK n hp vp w h (V1.mkJoin hp vp w h b (i, s)).1 ∧ EntryOK n hp vp w h (V1.mkJoin hp vp w h b (i, s)).2.1 := by
  obtain ⟨hn, hhp, hvp, _⟩ := layoutV1_cases (w := w) (h := h) hl
  have htab := V1.tablesV1 hl
  obtain ⟨d, j⟩ := b
  cases d
  · simp only [V1.BorderOK, Bool.false_eq_true, if_false] at hb
    simp only [V1.borderSize, Bool.false_eq_true, if_false] at hi
    obtain ⟨p1, p2, p3⟩ := partOf_spec hhp hi
    simp only [V1.pairOf, V1.mkJoin, Bool.false_eq_true, if_false]
    generalize ht : partOf hp w i = t at *
    have hk : hp * j + t < hp * vp := by
      have : hp * (j + 1) ≤ hp * vp := Nat.mul_le_mul_left _ (by omega)
      rw [Nat.mul_succ] at this; omega
    obtain ⟨k1, k2⟩ := patch_div (b := j) p1
    rw [Nat.mul_comm j hp] at k1 k2
    obtain ⟨l1, l2, l3⟩ := lower_patch (vp := vp) hhp (a := hp * j + t) (by omega)
    have e1 : pinfo hp vp w h (hp * j + t) = ⟨starts hp w t, starts vp h j, lengths hp w t, lengths vp h j⟩ := by
      unfold pinfo; rw [k1, k2]
    have e2 : pinfo hp vp w h (hp * j + t + hp) = ⟨starts hp w t, starts vp h (j + 1), lengths hp w t, lengths vp h (j + 1)⟩ := by
      unfold pinfo; rw [l2, l3, k1, k2]
    have n1 := lengths_next (total := h) hb
    have n2 := lengths_pos (i := j) hvp hh
    rw [← hn] at hk l1
    refine ⟨?_, ?_, ⟨hk, (htab _ hk).2.2.2.2 (by rw [k2]; exact hb), ?_⟩, ⟨l1, (htab _ l1).2.2.1.2 (by rw [l3]; omega), ?_⟩⟩
    · simp only [entryPixel]; rw [e1]; exact Prod.ext (by dsimp only; omega) (by dsimp only; omega)
    · simp only [entryPixel]; rw [e2]; exact Prod.ext (by dsimp only; omega) rfl
    · rw [if_neg (by dsimp only; omega)]; dsimp only; rw [e1]; dsimp only; omega
    · rw [if_neg (by dsimp only; omega)]; dsimp only; rw [e2]; dsimp only; omega
  · simp only [V1.BorderOK, if_true] at hb
    simp only [V1.borderSize, if_true] at hi
    obtain ⟨p1, p2, p3⟩ := partOf_spec hvp hi
    simp only [V1.pairOf, V1.mkJoin, if_true]
    generalize ht : partOf vp h i = t at *
    have hk : j + hp * t < hp * vp := by
      have : hp * (t + 1) ≤ hp * vp := Nat.mul_le_mul_left _ (by omega)
      rw [Nat.mul_succ] at this; omega
    obtain ⟨k1, k2⟩ := patch_div (b := t) (show j < hp by omega)
    rw [Nat.mul_comm t hp, Nat.add_comm] at k1 k2
    obtain ⟨l1, l2, l3⟩ := right_patch (vp := vp) hhp hk (by omega)
    have e1 : pinfo hp vp w h (j + hp * t) = ⟨starts hp w j, starts vp h t, lengths hp w j, lengths vp h t⟩ := by
      unfold pinfo; rw [k1, k2]
    have e2 : pinfo hp vp w h (j + hp * t + 1) = ⟨starts hp w (j + 1), starts vp h t, lengths hp w (j + 1), lengths vp h t⟩ := by
      unfold pinfo; rw [l2, l3, k1, k2]
    have n1 := lengths_next (total := w) hb
    have n2 := lengths_pos (i := j) hhp hw
    rw [← hn] at hk l1
    refine ⟨?_, ?_, ⟨hk, (htab _ hk).2.1.2 (by rw [k1]; exact hb), ?_⟩, ⟨l1, (htab _ l1).1.2 (by rw [l2]; omega), ?_⟩⟩
    · simp only [entryPixel]; rw [e1]; exact Prod.ext (by dsimp only; omega) (by dsimp only; omega)
    · simp only [entryPixel]; rw [e2]; exact Prod.ext rfl (by dsimp only; omega)
    · rw [if_pos (by dsimp only; omega)]; dsimp only; rw [e1]; dsimp only; omega
    · rw [if_pos (by dsimp only; omega)]; dsimp only; rw [e2]; dsimp only; omega

/-- **C15** (V1, 1, 2, 4, 8, 16 and 32 threads) Whatever the gray values by which the joins are ordered: a pair of
pixels is joined exactly when the second is the right or lower neighbour of the first and they lie in different
patches; no pair is joined twice; and every table entry used exists. -/
theorem C15_v1_joins_are_the_cross_patch_adjacencies (hl : layoutV1 n = some (hp, vp)) (hw : hp ≤ w) (hh : vp ≤ h) :
    ∃ J, joinsV1 n (pinfo hp vp w h) w h img gm = some J ∧
      (joinPixelsV1 hp vp w h J).Nodup ∧
      (∀ p q : Nat × Nat, (p, q) ∈ joinPixelsV1 hp vp w h J ↔
        p ∈ pixels w h ∧ q ∈ pixels w h ∧ patchOf hp vp w h p ≠ patchOf hp vp w h q ∧
          ((q.1 = p.1 + 1 ∧ q.2 = p.2) ∨ (q.1 = p.1 ∧ q.2 = p.2 + 1))) ∧
      ∀ j ∈ J, EntryOK n hp vp w h j.1 ∧ EntryOK n hp vp w h j.2.1 := by
  obtain ⟨hn, hhp, hvp, _⟩ := layoutV1_cases (w := w) (h := h) hl
  obtain ⟨J, fl, hJ, hP⟩ := V1.joinsV1_plan (img := img) (gm := gm) hl hw hh
  obtain ⟨b1, b2, b3, b4⟩ := V1.bordersV1_spec hl
  have hbord : ∀ b, b ∈ V1.bordersV1 n ↔ V1.BorderOK hp vp b := by
    rintro ⟨d, j⟩
    cases d
    · rw [b3]; simp [V1.BorderOK]
    · rw [b2]; simp [V1.BorderOK]
  have hfl : ∀ x ∈ fl, V1.BorderOK hp vp x.1 ∧ x.2.1 < V1.borderSize w h x.1 := by
    intro x hx
    have := (hP.mem x.1 x.2.1).1 (List.mem_map.2 ⟨x, hx, rfl⟩)
    exact ⟨(hbord _).1 this.1, this.2⟩
  have hmap : joinPixelsV1 hp vp w h J = (fl.map (fun x => (x.1, x.2.1))).map (fun y => V1.pairOf hp vp w h y.1 y.2) := by
    unfold joinPixelsV1
    rw [hP.eq, List.map_map, List.map_map]
    refine List.map_congr_left fun x hx => ?_
    obtain ⟨h1, h2⟩ := hfl x hx
    obtain ⟨k1, k2, _⟩ := join_entries (s := x.2.2) hl hw hh h1 h2
    exact Prod.ext k1 k2
  have hpair : ∀ b i, V1.BorderOK hp vp b → i < V1.borderSize w h b →
      (b.1 = true ∧ V1.pairOf hp vp w h b i = ((starts hp w (b.2 + 1) - 1, i), (starts hp w (b.2 + 1), i)) ∧
        1 ≤ starts hp w (b.2 + 1) ∧ b.2 + 1 < hp ∧ i < h) ∨
      (b.1 = false ∧ V1.pairOf hp vp w h b i = ((i, starts vp h (b.2 + 1) - 1), (i, starts vp h (b.2 + 1))) ∧
        1 ≤ starts vp h (b.2 + 1) ∧ b.2 + 1 < vp ∧ i < w) := by
    rintro ⟨d, j⟩ i hb hi
    cases d
    · simp only [V1.BorderOK, V1.borderSize, Bool.false_eq_true, if_false] at hb hi
      have := lengths_next (total := h) hb
      have := lengths_pos (i := j) hvp hh
      exact .inr ⟨rfl, rfl, by dsimp only; omega, hb, hi⟩
    · simp only [V1.BorderOK, V1.borderSize, if_true] at hb hi
      have := lengths_next (total := w) hb
      have := lengths_pos (i := j) hhp hw
      exact .inl ⟨rfl, rfl, by dsimp only; omega, hb, hi⟩
  have hmono : ∀ {m t a b : Nat}, 1 ≤ m → m ≤ t → a < m → b < m → starts m t a = starts m t b → a = b := by
    intro m t a b h1 h2 ha hb e
    have hs : 1 ≤ t / m := Nat.div_pos h2 h1
    rw [starts_eq, starts_eq] at e
    exact Nat.eq_of_mul_eq_mul_right hs e
  refine ⟨J, hJ, ?_, ?_, ?_⟩
  · rw [hmap]
    refine List.Nodup.map_on ?_ (hP.nodup b1)
    intro x hx y hy e
    obtain ⟨u1, u2⟩ := (hP.mem x.1 x.2).1 hx
    obtain ⟨v1, v2⟩ := (hP.mem y.1 y.2).1 hy
    rcases hpair _ _ ((hbord _).1 u1) u2 with ⟨c1, c2, c3, c4, c5⟩ | ⟨c1, c2, c3, c4, c5⟩ <;>
    rcases hpair _ _ ((hbord _).1 v1) v2 with ⟨d1, d2, d3, d4, d5⟩ | ⟨d1, d2, d3, d4, d5⟩
    · rw [c2, d2] at e
      simp only [Prod.mk.injEq] at e
      have := hmono hhp hw c4 d4 e.2.1
      exact Prod.ext (Prod.ext (c1.trans d1.symm) (by omega)) e.1.2
    · rw [c2, d2] at e
      simp only [Prod.mk.injEq] at e
      omega
    · rw [c2, d2] at e
      simp only [Prod.mk.injEq] at e
      omega
    · rw [c2, d2] at e
      simp only [Prod.mk.injEq] at e
      have := hmono hvp hh c4 d4 e.2.2
      exact Prod.ext (Prod.ext (c1.trans d1.symm) (by omega)) e.1.1
  · intro p q
    rw [hmap, List.mem_map]
    constructor
    · rintro ⟨x, hx, e⟩
      obtain ⟨u1, u2⟩ := (hP.mem x.1 x.2).1 hx
      have hb := (hbord _).1 u1
      have := V1.pair_spec hl hw hh hb u2
      rw [e] at this
      refine ⟨this.1, this.2.1, this.2.2, ?_⟩
      rcases hpair _ _ hb u2 with ⟨c1, c2, c3, c4, c5⟩ | ⟨c1, c2, c3, c4, c5⟩
      · rw [c2, Prod.mk.injEq] at e
        obtain ⟨rfl, rfl⟩ := e
        left; dsimp only; omega
      · rw [c2, Prod.mk.injEq] at e
        obtain ⟨rfl, rfl⟩ := e
        right; dsimp only; omega
    · rintro ⟨h1, h2, h3, h4⟩
      obtain ⟨b, i, k1, k2, k3⟩ := V1.cross hl hw hh h1 h2 h3 h4
      exact ⟨(b, i), (hP.mem b i).2 ⟨(hbord b).2 k1, k2⟩, k3⟩
  · intro j hj
    rw [hP.eq, List.mem_map] at hj
    obtain ⟨x, hx, rfl⟩ := hj
    obtain ⟨h1, h2⟩ := hfl x hx
    obtain ⟨_, _, k1, k2⟩ := join_entries (s := x.2.2) hl hw hh h1 h2
    exact ⟨k1, k2⟩

example : layoutV1 16 = some (4, 4) ∧ 4 ≤ 9 ∧ 4 ≤ 5 := by decide

/-! ### C66 -/

/-- **C66** is false of the code: with 8, 16 or 32 threads, an image with fewer columns than columns of patches, or
fewer rows than rows of patches, makes `merge_tree_parallel_step` divide by zero. -/
theorem C66_small_image_divides_by_zero (hl : layoutV1 n = some (hp, vp)) (h8 : 8 ≤ n) (hs : w < hp ∨ h < vp) :
    joinsV1 n (pinfo hp vp w h) w h img gm = none := by
  have key : ∀ cs : List StepCall, (∃ c ∈ cs, V1.stepJoins (pinfo hp vp w h) w h img gm c = none) →
      V1.callJoins (pinfo hp vp w h) w h img gm cs = none := by
    intro cs
    induction cs with
    | nil => rintro ⟨c, hc, _⟩; simp at hc
    | cons c cs ih =>
      rintro ⟨c', hc', e⟩
      unfold V1.callJoins
      rcases List.mem_cons.1 hc' with rfl | hm
      · rw [e]
      · rw [ih ⟨c', hm, e⟩]
        cases V1.stepJoins (pinfo hp vp w h) w h img gm c <;> rfl
  have hH : ∀ {l : List Nat} {s : Nat}, (pinfo hp vp w h (l.getD 0 0)).height = 0 →
      V1.stepJoins (pinfo hp vp w h) w h img gm ⟨l, s, true⟩ = none := by
    intro l s e; unfold V1.stepJoins; dsimp only; rw [if_pos rfl, if_pos e]
  have hW : ∀ {l : List Nat} {s : Nat}, (pinfo hp vp w h (l.getD 0 0)).width = 0 →
      V1.stepJoins (pinfo hp vp w h) w h img gm ⟨l, s, false⟩ = none := by
    intro l s e; unfold V1.stepJoins; dsimp only; rw [if_neg (by decide), if_pos e]
  have hz : ∀ {m t : Nat}, 2 ≤ m → t < m → lengths m t 0 = 0 := by
    intro m t h1 h2; unfold lengths; rw [if_pos (by omega)]; exact Nat.div_eq_of_lt h2
  rcases V1.layoutV1_list hl with ⟨rfl, rfl, rfl⟩ | ⟨rfl, rfl, rfl⟩ | ⟨rfl, rfl, rfl⟩ | ⟨rfl, rfl, rfl⟩ | ⟨rfl, rfl, rfl⟩ | ⟨rfl, rfl, rfl⟩
  · omega
  · omega
  · omega
  · refine key _ ?_
    rcases hs with c | c
    · exact ⟨⟨[0, 1, 2, 3], 4, false⟩, by simp [V1.calls8V1], hW (hz (by decide) c)⟩
    · exact ⟨⟨[0, 4], 1, true⟩, by simp [V1.calls8V1], hH (hz (by decide) c)⟩
  · refine key _ ?_
    rcases hs with c | c
    · exact ⟨⟨[0, 1, 2, 3], 4, false⟩, by simp [V1.calls16V1], hW (hz (by decide) c)⟩
    · exact ⟨⟨[0, 4, 8, 12], 1, true⟩, by simp [V1.calls16V1], hH (hz (by decide) c)⟩
  · refine key _ ?_
    rcases hs with c | c
    · exact ⟨⟨[0, 1, 2, 3, 4, 5, 6, 7], 8, false⟩, by simp [V1.calls32V1], hW (hz (by decide) c)⟩
    · exact ⟨⟨[0, 8, 16, 24], 1, true⟩, by simp [V1.calls32V1], hH (hz (by decide) c)⟩

/-- **C66** (partial) Images with at least one pixel per patch are treated without such a failure, up to the end of the
joins, if they have fewer than 256 different gray values (see C08).  (The full property: for every image size.) -/
theorem C66_large_enough_partial (hl : layoutV1 n = some (hp, vp)) (hw : hp ≤ w) (hh : vp ≤ h) (hI : ImageOK w h img gm)
    (hgc : grayCount w h img gm < 256) (hb : 513 ≤ bound) (hf : bound * ((hp - 1) * h + (vp - 1) * w + 1) ≤ fuel) :
    ∃ steps v M, AllEnded eight n hp vp w h img gm pk border steps v ∧
      mergeTreesV1 n hp vp w h img gm v pts fuel bound = some M := by
  obtain ⟨v, hv⟩ := C64_all_patches_end (eight := eight) (pk := pk) (border := border) hl hw hh hI hgc
  obtain ⟨M, _, _, h1, _⟩ := mergedV1 (pts := pts) hl hw hh hI hv hb hf
  exact ⟨_, v, M, hv, h1⟩

example : layoutV1 8 = some (4, 2) ∧ 8 ≤ 8 ∧ 3 < 4 := by decide

end Verif.Props
