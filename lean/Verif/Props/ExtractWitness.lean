import Verif.Props.Extract

/-!
# Images for which C27, C28 and C29 fail
-/

namespace Verif.Props

open Verif.Spec Verif.Recog Verif.Partition Verif.Extract
open Verif.FloodMem (MSt labelOf pass levelSizes)
open Verif.Connect (World Str Res)

/-- A configuration for which every region but the root is reported, if the image is small. -/
def lenientCfg : Cfg :=
  { delta := 1, minPoint := 1, maxPoint := 1000, stable := 1000, nms := -1, dup := 0, r32 := id, r64 := id }

theorem lenient_reported {w h : Nat} {g : Nat × Nat → Nat} {ι : Type} {T : RegionTree (Nat × Nat) ι}
    (hT : IsComponentTree (Adj4 w h) g (pixels w h) T) (hg : ∀ p ∈ pixels w h, g p < 256) (hs : w * h ≤ 1000)
    {out : Recognized ι} {arr : List ι} {gs : List (List ι × ι)}
    (hR : Result T lenientCfg (Selected T (limits lenientCfg)) out arr gs)
    {p q : Nat × Nat} (hp : p ∈ pixels w h) (hq : q ∈ pixels w h) (hn : ¬ LConn (Adj4 w h) g (g p) p q) :
    T.lab p ∈ out.reported := by
  classical
  have hok := hT.ok hg
  have hcard : (pixels w h).card = w * h := by simp [pixels]
  have hsz : ∀ r, T.isReg r → T.size r ≤ 1000 := by
    intro r hr
    rw [hT.size_eq r hr ((pixels w h).filter fun p => T.Under r p) (fun p => by rw [Finset.mem_filter])]
    have := Finset.card_filter_le (pixels w h) (fun p => T.Under r p)
    omega
  refine C23_no_threshold hok (fun r hr => hr.reg) hR rounding_id (fun r hr => by have := hsz r hr; omega) (le_refl _) _ ?_
  have hreg := hT.lab_reg p hp
  have hpos := hok.size_pos _ hreg
  refine ⟨hreg, ?_, ?_, ?_, ?_, ?_⟩
  · rintro v ⟨s, hw, ⟨_, e⟩ | ⟨_, e⟩⟩
    · obtain rfl := Option.some.inj e
      have hs' := hsz s (hT.anc_reg hreg hw.anc).1
      show (((T.size s : Int) - (T.size (T.lab p) : Int) : Int) : ℚ) / ((T.size (T.lab p) : Int) : ℚ) ≤ 1000
      have h1 : (1 : ℚ) ≤ ((T.size (T.lab p) : Int) : ℚ) := by exact_mod_cast hpos
      have h2 : (((T.size s : Int) - (T.size (T.lab p) : Int) : Int) : ℚ) ≤ 1000 := by
        exact_mod_cast (show ((T.size s : Int) - (T.size (T.lab p) : Int) : Int) ≤ 1000 by omega)
      rw [div_le_iff₀ (by linarith)]
      linarith
    · cases e
  · show (1 : Int) ≤ _
    exact_mod_cast hpos
  · show _ ≤ (1000 : Int)
    exact_mod_cast hsz _ hreg
  · intro hnone
    rw [mem_pixels] at hp
    obtain ⟨r, _, _, h3, h4⟩ := hT.root (fun a b hab => ⟨hab.1, hab.2.1⟩) adj4_symm (s := (0, 0))
      (mem_pixels.2 ⟨by omega, by omega⟩) grid_connected
    have e := h3 _ hreg hnone
    have hu := h4 q hq
    rw [← e, hT.comp _ hreg p (mem_pixels.2 hp) .refl q hq, hT.lab_gray p (mem_pixels.2 hp)] at hu
    exact hn hu
  · intro h0
    exact absurd h0 (by show ¬ (0 : ℚ) ≤ -1; norm_num)

/-- The second pass runs on every patch, too. -/
theorem patchTrees_exist_bright {n hp vp w h : Nat} {img : Nat → Nat → Nat} (hl : layoutV2 n = some (hp, vp))
    (hw : hp ≤ w) (hh : vp ≤ h) (hI : ImageOK w h img 0) (hc : w * h ≤ 2 ^ 29) (hgc : grayCount w h img 0 < 256)
    (hgc' : grayCount w h img 255 < 256) : ∃ ms, PatchTrees n hp vp w h img 255 ms := by
  have hex : ∀ k, ∃ md ms : MSt, k < n →
      pass (pinfo hp vp w h k).width (pinfo hp vp w h k).height (patchImg hp vp w h img k) 0 true (heapSize n w h)
        (5 * ((pinfo hp vp w h k).width * (pinfo hp vp w h k).height))
        ⟨fun _ => 0, fun _ => none, fun _ => heapBase (pinfo hp vp w h) k⟩ (fun _ => 0) = .done md ∧
      pass (pinfo hp vp w h k).width (pinfo hp vp w h k).height (patchImg hp vp w h img k) 255 true (heapSize n w h)
        (5 * ((pinfo hp vp w h k).width * (pinfo hp vp w h k).height)) md.toBuf
        (levelSizes (pinfo hp vp w h k).width (pinfo hp vp w h k).height (patchImg hp vp w h img k)) = .done ms := by
    intro k
    by_cases hk : k < n
    · have hfit : (⟨fun _ => 0, fun _ => none, fun _ => heapBase (pinfo hp vp w h) k⟩ : FloodMem.Buf).top 0 +
          ((pinfo hp vp w h k).width * (pinfo hp vp w h k).height + 257) ≤ heapSize n w h := patch_heap_fits hl hk
      obtain ⟨md, hm⟩ := C04_pass_completes (hsize := heapSize n w h) (fromMin := true)
        (b := ⟨fun _ => 0, fun _ => none, fun _ => heapBase (pinfo hp vp w h) k⟩) (ls := fun _ => 0)
        (patch_imageOK hl hw hh hI hk) (le_trans (patch_area_le hl hk) hc)
        hfit (lt_of_le_of_lt (patch_grayCount hl hk) hgc)
      obtain ⟨ms, hm2⟩ := C04_second_pass_completes
        (patch_imageOK hl hw hh hI hk) (le_trans (patch_area_le hl hk) hc)
        hfit (lt_of_le_of_lt (patch_grayCount hl hk) hgc') hm
      exact ⟨md, ms, fun _ => ⟨hm, hm2⟩⟩
    · obtain ⟨m, hm⟩ := C04_pass_completes (hsize := 263) (fromMin := true) (b := emptyBuf) (ls := fun _ => 0)
        (w := 3) (h := 2) (img := sampleImg)
        ⟨by decide, by decide, fun x y _ _ => by unfold sampleImg; split <;> [skip; split] <;> decide, by decide⟩
        (by decide) (by decide) (by decide)
      exact ⟨m, m, fun h => absurd h hk⟩
  choose md ms hms using hex
  exact ⟨ms, patchTrees_bright (b := fun k => ⟨fun _ => 0, fun _ => none, fun _ => heapBase (pinfo hp vp w h) k⟩)
    (ls := fun _ _ => 0) hl hw hh hI hc (fun _ _ => rfl) (fun k hk => (hms k hk).1) (fun k hk => (hms k hk).2)⟩

/-- The 6×2 image with the rows `1 0 1 1 1 1` and `0 0 0 1 1 1`. -/
def notchImg (x y : Nat) : Nat := if (x = 1 ∧ y = 0) ∨ (x < 3 ∧ y = 1) then 0 else 1

theorem notch_ok : ImageOK 6 2 notchImg 0 :=
  ⟨by decide, by decide, fun x y _ _ => by unfold notchImg; split <;> decide, by decide⟩

theorem notch_gray : ∀ p : Nat × Nat, notchImg p.1 p.2 ^^^ 0 = 0 ∨ notchImg p.1 p.2 ^^^ 0 = 1 := by
  intro p; unfold notchImg; split <;> simp

/-- The dark pixels are one component. -/
theorem notch_conn {p : Nat × Nat} :
    LConn (Adj4 6 2) (fun p => notchImg p.1 p.2 ^^^ 0) 0 (1, 0) p ↔ p = (1, 0) ∨ p = (0, 1) ∨ p = (1, 1) ∨ p = (2, 1) := by
  have h1 : ∀ a b : Nat × Nat, Adj4 6 2 a b ∧ notchImg a.1 a.2 ^^^ 0 ≤ 0 ∧ notchImg b.1 b.2 ^^^ 0 ≤ 0 →
      LConn (Adj4 6 2) (fun p => notchImg p.1 p.2 ^^^ 0) 0 a b := fun a b h => Relation.ReflTransGen.single h
  have a1 := h1 (1, 0) (1, 1) ⟨⟨by decide, by decide, by decide⟩, by decide, by decide⟩
  constructor
  · intro h
    have hg := lconn_le (by decide) h
    rcases Relation.ReflTransGen.cases_tail h with e | ⟨b, _, hb⟩
    · exact .inl e
    · have hp : p ∈ pixels 6 2 := hb.1.2.1
      have : ∀ p ∈ pixels 6 2, notchImg p.1 p.2 ^^^ 0 ≤ 0 → p = (1, 0) ∨ p = (0, 1) ∨ p = (1, 1) ∨ p = (2, 1) := by decide
      exact this p hp hg
  · rintro (rfl | rfl | rfl | rfl)
    · exact .refl
    · exact a1.trans (h1 (1, 1) (0, 1) ⟨⟨by decide, by decide, by decide⟩, by decide, by decide⟩)
    · exact a1
    · exact a1.trans (h1 (1, 1) (2, 1) ⟨⟨by decide, by decide, by decide⟩, by decide, by decide⟩)

/-- In an image with the values 0 and 1 whose dark pixels are connected, exactly the dark component is reported
with the lenient configuration. -/
theorem two_level_reported {w h : Nat} {g : Nat × Nat → Nat} {ι : Type} {T : RegionTree (Nat × Nat) ι}
    (hT : IsComponentTree (Adj4 w h) g (pixels w h) T) (hs : w * h ≤ 1000) (hg : ∀ p, g p = 0 ∨ g p = 1)
    {p₀ q₀ : Nat × Nat} (hp₀ : p₀ ∈ pixels w h) (hq₀ : q₀ ∈ pixels w h) (h0 : g p₀ = 0) (h1 : g q₀ = 1)
    (hc : ∀ p ∈ pixels w h, g p = 0 → LConn (Adj4 w h) g 0 p₀ p)
    {out : Recognized ι} {arr : List ι} {gs : List (List ι × ι)}
    (hR : Result T lenientCfg (Selected T (limits lenientCfg)) out arr gs) : out.reported = [T.lab p₀] := by
  have hin := lenient_reported hT (fun p _ => by rcases hg p with h | h <;> omega) hs hR hp₀ hq₀ (by
      intro h
      have := lconn_le (Nat.le_refl _) h
      omega)
  have hall : ∀ r ∈ out.reported, r = T.lab p₀ := by
    intro r hr
    have hs := (hR.mem r).1 (hR.sub r hr)
    obtain ⟨p, hp, rfl⟩ := hT.reg_lab r hs.reg
    by_cases hz : g p = 0
    · refine ((hT.lab_eq hp₀ hp).2 ⟨by omega, ?_⟩).symm
      rw [h0]; exact hc p hp hz
    · exfalso
      cases hpar : T.parent (T.lab p) with
      | none => exact hs.parent hpar
      | some q =>
        obtain ⟨h1, h2⟩ := hT.parent_reg _ hs.reg q hpar
        obtain ⟨p', hp', rfl⟩ := hT.reg_lab q h1
        rw [hT.lab_gray p hp, hT.lab_gray p' hp'] at h2
        have := hg p
        have := hg p'
        omega
  have hnd := hR.rep_nodup
  match hm : out.reported with
  | [] => rw [hm] at hin; cases hin
  | [a] => rw [hm] at hall; rw [hall a (by simp)]
  | a :: b :: l =>
    rw [hm] at hall hnd
    have e1 := hall a (by simp)
    have e2 := hall b (by simp)
    rw [List.nodup_cons] at hnd
    exact absurd (by rw [e1, e2]; simp) hnd.1

theorem notch_reported {ι : Type} {T : RegionTree (Nat × Nat) ι}
    (hT : IsComponentTree (Adj4 6 2) (fun p => notchImg p.1 p.2 ^^^ 0) (pixels 6 2) T)
    {out : Recognized ι} {arr : List ι} {gs : List (List ι × ι)}
    (hR : Result T lenientCfg (Selected T (limits lenientCfg)) out arr gs) : out.reported = [T.lab (1, 0)] := by
  refine two_level_reported hT (by decide) notch_gray (q₀ := (3, 0)) (by decide) (by decide) (by decide) (by decide) ?_ hR
  intro p hp h0
  rw [notch_conn]
  have : ∀ p ∈ pixels 6 2, notchImg p.1 p.2 ^^^ 0 = 0 → p = (1, 0) ∨ p = (0, 1) ∨ p = (1, 1) ∨ p = (2, 1) := by
    decide
  exact this p hp h0

theorem notch_suitable : ∃ ms, Suitable 6 2 notchImg 0 20000 6000000 ms lenientCfg := by
  obtain ⟨ms, h1⟩ := patchTrees_exist (n := 4) (hp := 2) (vp := 2) rfl (by decide) (by decide) notch_ok (by decide) (by decide)
  exact ⟨ms, h1, by decide, rounding_id, rounding_id, by norm_num [lenientCfg], by decide, by decide⟩

/-- **C27** (violated) In the 6×2 image above, four threads report one region, the four dark pixels; its rectangle
is two pixels wide, and the pixel (2, 1) of the region lies outside. -/
theorem C27_false {msize exceed : Nat} (v : Nat × Nat → ℚ) (thr : Int) (heap0 : Reg → Option Int)
    (jk : Int × Int × Int) (junk : Reg → Nat) :
    ∃ ms W out X D, Suitable 6 2 notchImg 0 20000 6000000 ms lenientCfg ∧
      Pipeline 6 2 0 20000 6000000 ms lenientCfg msize exceed v thr heap0 jk junk W out X ∧ X.count = 1 ∧
      points X 0 = some D ∧ (2, 1) ∈ D ∧ (X.ms 0).rect = ⟨0, 0, 2, 2⟩ ∧ ¬ IsBoundingBox D (X.ms 0).rect := by
  obtain ⟨ms, hS⟩ := notch_suitable
  obtain ⟨W, out, X, hX⟩ := C25_runs (msize := msize) (exceed := exceed) hS v thr heap0 jk junk
  obtain ⟨hC, ⟨arr, gs, hr⟩, _, P, ok, D, hN, hnd, hl, hown, hne⟩ := pipeline_spec hS hX
  have hrep := notch_reported hC hr
  have hlen : out.reported.length = 1 := by rw [hrep]; rfl
  have hP1 : P.N = 1 := by rw [hN, hlen]
  obtain ⟨L, h1, h2⟩ := points_spec ok D.count D.memSize D.ms D.done (i := 0) (by omega)
  rw [← Plan.list_eq] at h2
  have hmem : ∀ pt, pt ∈ P.all 0 ↔ pt = (1, 0) ∨ pt = (0, 1) ∨ pt = (1, 1) ∨ pt = (2, 1) := by
    intro pt
    have := (hl 0 (by omega)).2.2 pt
    rw [show P.list 0 = P.all 0 by simp [Plan.list, Plan.descs]] at this
    rw [this]
    have hr0 : out.reported[0]'(by omega) = (mergedTree 4 2 2 6 2 ms 20000 W).lab (1, 0) := by simp [hrep]
    rw [hr0]
    have hc := hC.comp _ (hC.lab_reg (1, 0) (by decide)) (1, 0) (by decide) .refl
    rw [hC.lab_gray (1, 0) (by decide), show notchImg (1, 0).1 (1, 0).2 ^^^ 0 = 0 by decide] at hc
    constructor
    · rintro ⟨p, hp, hu, rfl⟩
      rcases notch_conn.1 ((hc p hp).1 hu) with rfl | rfl | rfl | rfl <;> simp [toPt]
    · rintro (rfl | rfl | rfl | rfl)
      · exact ⟨(1, 0), by decide, (hc _ (by decide)).2 (notch_conn.2 (by decide)), rfl⟩
      · exact ⟨(0, 1), by decide, (hc _ (by decide)).2 (notch_conn.2 (by decide)), rfl⟩
      · exact ⟨(1, 1), by decide, (hc _ (by decide)).2 (notch_conn.2 (by decide)), rfl⟩
      · exact ⟨(2, 1), by decide, (hc _ (by decide)).2 (notch_conn.2 (by decide)), rfl⟩
  have hsub : ∀ k, k < 4 → ∀ pt ∈ P.own k 0, pt ∈ P.all 0 := by
    intro k hk pt hpt
    simp only [Plan.all, List.mem_append]
    have : k = 0 ∨ k = 1 ∨ k = 2 ∨ k = 3 := by omega
    rcases this with rfl | rfl | rfl | rfl <;> simp [hpt]
  have hpart : ∀ k, k < 4 → ∀ pt ∈ P.own k 0, ∃ p ∈ pixels 6 2, (pinfo 2 2 6 2 k).Has p ∧ pt = toPt p :=
    fun k hk => hown k 0 hk
  have hfind : ∀ k, k < 4 → ∀ p : Nat × Nat, toPt p ∈ P.own k 0 → (pinfo 2 2 6 2 k).Has p := by
    intro k hk p hp
    obtain ⟨q, _, h3, h4⟩ := hpart k hk _ hp
    simp only [toPt, Prod.mk.injEq] at h4
    have : p = q := Prod.ext (by omega) (by omega)
    rw [this]; exact h3
  have hbox : ∀ k, k < 4 → BlockBox (boxOf P jk k 0) (P.own k 0) := by
    intro k hk
    refine block_box (fun pt hpt => ?_) jk
    rcases (hmem pt).1 (hsub k hk pt hpt) with rfl | rfl | rfl | rfl <;> omega
  have hdec : ∀ k, k < 4 → ∀ pt ∈ P.own k 0, ∃ p : Nat × Nat, (p = (1, 0) ∨ p = (0, 1) ∨ p = (1, 1) ∨ p = (2, 1)) ∧
      pt = toPt p ∧ (pinfo 2 2 6 2 k).Has p := by
    intro k hk pt hpt
    rcases (hmem pt).1 (hsub k hk pt hpt) with rfl | rfl | rfl | rfl
    · exact ⟨(1, 0), by simp, rfl, hfind k hk (1, 0) hpt⟩
    · exact ⟨(0, 1), by simp, rfl, hfind k hk (0, 1) hpt⟩
    · exact ⟨(1, 1), by simp, rfl, hfind k hk (1, 1) hpt⟩
    · exact ⟨(2, 1), by simp, rfl, hfind k hk (2, 1) hpt⟩
  have hempty : ∀ k, k = 1 ∨ k = 3 → P.own k 0 = [] := by
    intro k hk
    rw [List.eq_nil_iff_forall_not_mem]
    intro pt hpt
    obtain ⟨p, h3, _, h4⟩ := hdec k (by omega) pt hpt
    rcases hk with rfl | rfl <;> rcases h3 with rfl | rfl | rfl | rfl <;> exact absurd h4 (by unfold PInfo.Has; decide)
  have h0 : ∀ pt, pt ∈ P.own 0 0 → pt = (1, 0) := by
    intro pt hpt
    obtain ⟨p, h3, e, h4⟩ := hdec 0 (by decide) pt hpt
    rcases h3 with rfl | rfl | rfl | rfl
    · exact e
    · exact absurd h4 (by unfold PInfo.Has; decide)
    · exact absurd h4 (by unfold PInfo.Has; decide)
    · exact absurd h4 (by unfold PInfo.Has; decide)
  have h2' : ∀ pt, pt ∈ P.own 2 0 → pt.2 = 1 := by
    intro pt hpt
    obtain ⟨p, h3, e, h4⟩ := hdec 2 (by decide) pt hpt
    rcases h3 with rfl | rfl | rfl | rfl
    · exact absurd h4 (by unfold PInfo.Has; decide)
    · rw [e]; rfl
    · rw [e]; rfl
    · rw [e]; rfl
  have hin0 : ((1, 0) : Pt) ∈ P.own 0 0 := by
    have := (hmem (1, 0)).2 (by simp)
    simp only [Plan.all, List.mem_append, hempty 1 (.inl rfl), hempty 3 (.inr rfl), List.not_mem_nil, or_false] at this
    rcases this with h | h
    · exact h
    · exact absurd (h2' _ h) (by decide)
  have hin2 : ((0, 1) : Pt) ∈ P.own 2 0 := by
    have := (hmem (0, 1)).2 (by simp)
    simp only [Plan.all, List.mem_append, hempty 1 (.inl rfl), hempty 3 (.inr rfl), List.not_mem_nil, or_false] at this
    rcases this with h | h
    · exact absurd (h0 _ h) (by decide)
    · exact h
  have hb1 : (boxOf P jk 1 0).1 = -1 := by
    rcases hbox 1 (by decide) with h | h
    · exact h.2
    · exact absurd (hempty 1 (.inl rfl)) h.1
  have hb3 : (boxOf P jk 3 0).1 = -1 := by
    rcases hbox 3 (by decide) with h | h
    · exact h.2
    · exact absurd (hempty 3 (.inr rfl)) h.1
  have hb0 : boxOf P jk 0 0 = (1, 0, 1, 0) := by
    rcases hbox 0 (by decide) with h | ⟨_, _, h⟩
    · rw [h.1] at hin0; cases hin0
    · obtain ⟨p1, u1, e1⟩ := h.left
      obtain ⟨p2, u2, e2⟩ := h.top
      obtain ⟨p3, u3, e3⟩ := h.right
      obtain ⟨p4, u4, e4⟩ := h.bottom
      rw [h0 _ u1] at e1; rw [h0 _ u2] at e2; rw [h0 _ u3] at e3; rw [h0 _ u4] at e4
      exact Prod.ext e1.symm (Prod.ext e2.symm (Prod.ext e3.symm e4.symm))
  have hb2 : (boxOf P jk 2 0).1 = 0 ∧ (boxOf P jk 2 0).2.1 = 1 ∧ (boxOf P jk 2 0).2.2.2 = 1 := by
    rcases hbox 2 (by decide) with h | ⟨_, hpos, h⟩
    · rw [h.1] at hin2; cases hin2
    · have a1 := (h.lower _ hin2).1
      obtain ⟨p2, u2, e2⟩ := h.top
      obtain ⟨p4, u4, e4⟩ := h.bottom
      rw [h2' _ u2] at e2; rw [h2' _ u4] at e4
      refine ⟨?_, e2.symm, e4.symm⟩
      dsimp only at a1; omega
  have hrect : (X.ms 0).rect = ⟨0, 0, 2, 2⟩ := by
    rw [D.rect 0 (by omega), hP1]
    show (Rect.zero.append (ownRect (boxOf P jk) 0)) = _
    have : ownBox (boxOf P jk) 0 = (0, 0, 1, 1) := by
      generalize hB2 : boxOf P jk 2 0 = B2 at hb2
      generalize hB1 : boxOf P jk 1 0 = B1 at hb1
      generalize hB3 : boxOf P jk 3 0 = B3 at hb3
      obtain ⟨l2, t2, r2, b2⟩ := B2
      obtain ⟨l1, t1, r1, b1⟩ := B1
      obtain ⟨l3, t3, r3, b3⟩ := B3
      dsimp only at hb1 hb2 hb3
      obtain ⟨rfl, rfl, rfl⟩ := hb2
      subst hb1 hb3
      simp [ownBox, hb0, hB1, hB2, hB3, joinBox]
    simp only [ownRect, this]
    decide
  have hD : ((2, 1) : Pt) ∈ L := by
    rw [h2.mem_iff, show P.list 0 = P.all 0 by simp [Plan.list, Plan.descs], hmem]; simp
  refine ⟨ms, W, out, X, L, hS, hX, by rw [D.count, hP1], h1, hD, hrect, fun hb => ?_⟩
  have := hb.inside _ hD
  rw [hrect] at this
  simp at this

/-- The same image inverted: the rows `254 255 254 254 254 254` and `255 255 255 254 254 254`. -/
def brightNotchImg (x y : Nat) : Nat := if (x = 1 ∧ y = 0) ∨ (x < 3 ∧ y = 1) then 255 else 254

theorem brightNotch_xor (x y : Nat) : brightNotchImg x y ^^^ 255 = notchImg x y ^^^ 0 := by
  unfold brightNotchImg notchImg; split <;> rfl

theorem brightNotch_ok : ImageOK 6 2 brightNotchImg 0 :=
  ⟨by decide, by decide, fun x y _ _ => by unfold brightNotchImg; split <;> decide, by decide⟩

theorem brightNotch_suitable : ∃ ms, Suitable 6 2 brightNotchImg 255 20000 6000000 ms lenientCfg := by
  obtain ⟨ms, h1⟩ := patchTrees_exist_bright (n := 4) (hp := 2) (vp := 2) rfl (by decide) (by decide) brightNotch_ok
    (by decide) (by decide) (by decide)
  exact ⟨ms, h1, by decide, rounding_id, rounding_id, by norm_num [lenientCfg], by decide, by decide⟩

/-- **C28** (violated) The only bright region of the inverted image has gray value 255; its record says 0. -/
theorem C28_false {msize exceed : Nat} (v : Nat × Nat → ℚ) (thr : Int) (heap0 : Reg → Option Int)
    (jk : Int × Int × Int) (junk : Reg → Nat) :
    ∃ ms W out X D, Suitable 6 2 brightNotchImg 255 20000 6000000 ms lenientCfg ∧
      Pipeline 6 2 255 20000 6000000 ms lenientCfg msize exceed v thr heap0 jk junk W out X ∧ X.count = 1 ∧
      points X 0 = some D ∧ SourceLevel true brightNotchImg D 255 ∧ (X.ms 0).gray = 0 ∧
      ¬ SourceLevel true brightNotchImg D (X.ms 0).gray := by
  obtain ⟨ms, hS⟩ := brightNotch_suitable
  obtain ⟨W, out, X, hX⟩ := C25_runs (msize := msize) (exceed := exceed) hS v thr heap0 jk junk
  obtain ⟨hC, ⟨arr, gs, hr⟩, _, P, ok, D, hN, hnd, hl, hown, hne⟩ := pipeline_spec hS hX
  simp only [brightNotch_xor] at hC
  have hrep := notch_reported hC hr
  have hcount : X.count = 1 := by rw [D.count, hN, hrep]; rfl
  obtain ⟨L, h1, h2⟩ := gray_spec hS hX (i := 0) (by omega)
  obtain ⟨L', h1', h3, h4⟩ := C28_bright_wrong hS brightNotch_ok hX (i := 0) (by omega)
  rw [h1] at h1'
  obtain rfl := Option.some.inj h1'
  have hg : (X.ms 0).gray = 0 := by
    simp only [brightNotch_xor] at h2
    obtain ⟨_, p₀, hp₀, he, hm⟩ := h2
    have hcmp := C25_points hS hX
    obtain ⟨_, _, _, hpts⟩ := hcmp
    obtain ⟨L2, e1, _, _, e4⟩ := hpts 0 (by rw [hrep]; exact Nat.one_pos)
    rw [h1] at e1
    obtain rfl := Option.some.inj e1
    have hr0 : out.reported[0]'(by rw [hrep]; exact Nat.one_pos) = (mergedTree 4 2 2 6 2 ms 20000 W).lab (1, 0) := by simp [hrep]
    rw [hr0] at e4
    have h5 : ((p₀.1 : Int), (p₀.2 : Int)) ∈ L := (hm _).2 ⟨p₀, hp₀, .refl, rfl⟩
    obtain ⟨q, hq, hu, e⟩ := (e4 _).1 h5
    simp only [Prod.mk.injEq] at e
    have : p₀ = q := Prod.ext (by exact_mod_cast e.1) (by exact_mod_cast e.2)
    subst this
    have hc := (hC.comp _ (hC.lab_reg (1, 0) (by decide)) (1, 0) (by decide) .refl p₀ hp₀).1 hu
    rw [hC.lab_gray (1, 0) (by decide), show notchImg (1, 0).1 (1, 0).2 ^^^ 0 = 0 by decide] at hc
    have := lconn_le (by decide) hc
    rw [← he]
    dsimp only at this ⊢
    omega
  refine ⟨ms, W, out, X, L, hS, hX, hcount, h1, ?_, hg, h4⟩
  rw [hg] at h3
  exact h3

/-- **C29** (violated for one thread) The 6×2 image on one thread: one region is found, and extraction then
accesses patches that do not exist. -/
theorem C29_false {msize exceed : Nat} (v : Nat × Nat → ℚ) (thr : Int) (heap0 : Reg → Option Int)
    (jk : Int × Int × Int) (junk : Reg → Nat) :
    ∃ ms W out, PatchTrees 1 1 1 6 2 notchImg 0 ms ∧ mergeTrees 1 1 1 6 2 ms 20000 512 = some W ∧
      recognizeSerial lenientCfg 20000 (allRegs 1 (patchRegs ms)) msize exceed (ofForest W.F v) = some out ∧
      out.reported.length = 1 ∧
      ∀ fuel, extractPixel (patchEnv 1 1 1 6 2 ms) thr 0 fuel (patchLabels ms) heap0 jk (ofRecognized out.R junk)
        out.reported = none := by
  obtain ⟨ms, h1⟩ := patchTrees_exist (n := 1) (hp := 1) (vp := 1) rfl (by decide) (by decide) notch_ok (by decide) (by decide)
  obtain ⟨W, out, arr, gs, e1, hC, e2, hr⟩ := C23_image_serial (cfg := lenientCfg) (fuel := 20000) (msize := msize)
    (exceed := exceed) h1 (by decide) v rounding_id rounding_id (by norm_num [lenientCfg]) (by decide)
  have hrep := notch_reported hC hr
  refine ⟨ms, W, out, h1, e1, e2, by rw [hrep]; rfl, fun fuel => ?_⟩
  exact C29_few_threads_out_of_range (show 1 < 4 by decide) (by rw [hrep]; simp)

/-- The image meets the hypotheses of C25 – C28, and the run reports a region. -/
example : ∃ ms W out X, Suitable 6 2 notchImg 0 20000 6000000 ms lenientCfg ∧
    Pipeline 6 2 0 20000 6000000 ms lenientCfg 100 10 (fun _ => 0) 1000 (fun _ => none) (7, 7, 7) (fun _ => 0) W out X ∧
    0 < X.count := by
  obtain ⟨ms, W, out, X, D, h1, h2, h3, _⟩ := C27_false (msize := 100) (exceed := 10) (fun _ => 0) 1000 (fun _ => none)
    (7, 7, 7) (fun _ => 0)
  exact ⟨ms, W, out, X, h1, h2, by omega⟩

/-- The 6×2 image whose only dark pixel is the first one. -/
def dotImg (x y : Nat) : Nat := if x = 0 ∧ y = 0 then 0 else 1

/-- An image meets the hypotheses of `C27_one_patch_partial`. -/
example : ∃ ms W out X, Suitable 6 2 dotImg 0 20000 6000000 ms lenientCfg ∧
    Pipeline 6 2 0 20000 6000000 ms lenientCfg 100 10 (fun _ => 0) 1000 (fun _ => none) (7, 7, 7) (fun _ => 0) W out X ∧
    0 < X.count ∧ ∀ D, points X 0 = some D → ∃ k, k < 4 ∧ ∀ p ∈ pixels 6 2, ((p.1 : Int), (p.2 : Int)) ∈ D →
      (pinfo 2 2 6 2 k).Has p := by
  have hI : ImageOK 6 2 dotImg 0 :=
    ⟨by decide, by decide, fun x y _ _ => by unfold dotImg; split <;> decide, by decide⟩
  obtain ⟨ms, h1⟩ := patchTrees_exist (n := 4) (hp := 2) (vp := 2) rfl (by decide) (by decide) hI (by decide) (by decide)
  have hS : Suitable 6 2 dotImg 0 20000 6000000 ms lenientCfg :=
    ⟨h1, by decide, rounding_id, rounding_id, by norm_num [lenientCfg], by decide, by decide⟩
  obtain ⟨W, out, X, hX⟩ := C25_runs (msize := 100) (exceed := 10) hS (fun _ => 0) 1000 (fun _ => none) (7, 7, 7) (fun _ => 0)
  obtain ⟨hC, ⟨arr, gs, hr⟩, hcount, hp⟩ := C25_points hS hX
  have hz : ∀ p ∈ pixels 6 2, dotImg p.1 p.2 ^^^ 0 = 0 → p = (0, 0) := by decide
  have hrep := two_level_reported hC (by decide) (fun p => by unfold dotImg; split <;> simp) (p₀ := (0, 0))
    (q₀ := (1, 0)) (by decide) (by decide) (by decide) (by decide) (fun p hp h0 => by rw [hz p hp h0]; exact .refl) hr
  have hlen : 0 < out.reported.length := by rw [hrep]; exact Nat.one_pos
  refine ⟨ms, W, out, X, hS, hX, by omega, fun D hD => ⟨0, by decide, fun p hpx hpD => ?_⟩⟩
  obtain ⟨D', e1, _, _, e4⟩ := hp 0 hlen
  rw [hD] at e1
  obtain rfl := Option.some.inj e1
  have hr0 : out.reported[0] = (mergedTree 4 2 2 6 2 ms 20000 W).lab (0, 0) := by simp [hrep]
  rw [hr0] at e4
  obtain ⟨q, hq, hu, e⟩ := (e4 _).1 hpD
  simp only [Prod.mk.injEq] at e
  have : p = q := Prod.ext (by exact_mod_cast e.1) (by exact_mod_cast e.2)
  subst this
  have hc := (hC.comp _ (hC.lab_reg (0, 0) (by decide)) (0, 0) (by decide) .refl p hpx).1 hu
  rw [hC.lab_gray (0, 0) (by decide), show dotImg (0, 0).1 (0, 0).2 ^^^ 0 = 0 by decide] at hc
  have hle : dotImg p.1 p.2 ^^^ 0 ≤ 0 := lconn_le (g := fun p : Nat × Nat => dotImg p.1 p.2 ^^^ 0) (by decide) hc
  rw [hz p hpx (Nat.le_zero.1 hle)]
  unfold PInfo.Has; decide

/-- The bright image meets the hypotheses of `C28_bright_wrong`. -/
example : ∃ ms W out X, Suitable 6 2 brightNotchImg 255 20000 6000000 ms lenientCfg ∧ ImageOK 6 2 brightNotchImg 0 ∧
    Pipeline 6 2 255 20000 6000000 ms lenientCfg 100 10 (fun _ => 0) 1000 (fun _ => none) (7, 7, 7) (fun _ => 0) W out X ∧
    0 < X.count := by
  obtain ⟨ms, W, out, X, D, h1, h2, h3, _⟩ := C28_false (msize := 100) (exceed := 10) (fun _ => 0) 1000 (fun _ => none)
    (7, 7, 7) (fun _ => 0)
  exact ⟨ms, W, out, X, h1, brightNotch_ok, h2, by omega⟩

/-- Two environments that differ in patch 4 only meet the hypotheses of `C29_further_patches_ignored`. -/
example : ∃ E E' : Env, E ≠ E' ∧ E.n = E'.n ∧ E.nreg = E'.nreg ∧ ∀ k, k < 4 → E.pi k = E'.pi k := by
  refine ⟨⟨32, fun _ => 1, fun _ => ⟨0, 0, 1, 1⟩⟩, ⟨32, fun _ => 1, fun k => if k = 4 then ⟨9, 0, 1, 1⟩ else ⟨0, 0, 1, 1⟩⟩,
    ?_, rfl, rfl, fun k hk => by dsimp only; rw [if_neg (by omega)]⟩
  intro e
  have := congrArg (fun E : Env => (E.pi 4).left) e
  simp at this

end Verif.Props
