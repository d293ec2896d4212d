import Verif.Props.LinearExtract

/-!
# Properties C76, C77 and C78 of the linear detector: what goes wrong
-/

namespace Verif.Props

open Relation (ReflTransGen)
open Verif.Spec Verif.Recog
open Verif.Linear (Dim Mask Buf cellVal forestL extractL readShare RecL XOutL climbL varL)

variable {D : Dim} {b : Buf} {s : Linear.St} {src : Nat → Nat → Nat} {mask : Mask} {gm : Nat} {cfg : Cfg}
  {lab : Nat × Nat → Nat} {g : Nat → Nat} {L : Nat → List Nat} {val : Nat → Nat → Nat}

/-- One step up. -/
abbrev UpL (s : Linear.St) : Nat → Nat → Prop := fun a c => (s.regs a).parent = some c

theorem upL_reg (hF : FloodedL D val s g lab L) {r a : Nat} (hr : r < s.nreg) (h : ReflTransGen (UpL s) r a) :
    a < s.nreg ∧ g r ≤ g a ∧ (r ≠ a → g r < g a) :=
  hF.tree.anc_reg (T := treeOfL s g lab) hr h

/-- Where the loop of `calculate_variation` ends: at the last region whose parent does not have a stored level above
the limit; every region passed has a stored level within the limit. -/
theorem climbL_end (hI : LevelsOK D val) (hF : FloodedL D val s g lab L) (var : Nat → ℚ) (thr : Int) :
    ∀ (n t : Nat), t < s.nreg → (256 ≤ n + g t) → ∃ t' o,
      climbL (ofForest (forestL s.nreg s.regs) var) thr n t (s.regs t).parent = some (t', o) ∧
      ReflTransGen (UpL s) t t' ∧ (s.regs t').parent = o ∧
      (∀ a, ReflTransGen (UpL s) t a → ReflTransGen (UpL s) a t' → a = t ∨ ((s.regs a).gray : Int) ≤ thr) ∧
      ∀ p, o = some p → thr < ((s.regs p).gray : Int)
  | n, t, ht, hn => by
    cases hp : (s.regs t).parent with
    | none =>
      refine ⟨t, none, by cases n <;> rfl, .refl, hp, fun a h1 _ => .inl ?_, fun _ h => by cases h⟩
      rcases ReflTransGen.cases_head h1 with e | ⟨c, h2, _⟩
      · exact e.symm
      · have h2 : (s.regs t).parent = some c := h2
        rw [hp] at h2; cases h2
    | some p =>
      obtain ⟨hp1, hp2⟩ := hF.tree.parent_reg t ht p hp
      have hp2 : g t < g p := hp2
      have h256 := level_le hI hF hp1
      have hgp : ((ofForest (forestL s.nreg s.regs) var p).gray) = (s.regs p).gray := by
        simp only [ofForest, forestL_reg hp1]
      by_cases hle : ((s.regs p).gray : Int) ≤ thr
      · obtain ⟨n, rfl⟩ : ∃ k, n = k + 1 := ⟨n - 1, by omega⟩
        obtain ⟨t', o, e1, e2, e3, e4, e5⟩ := climbL_end hI hF var thr n p hp1 (by omega)
        refine ⟨t', o, ?_, .head hp e2, e3, fun a h1 h2 => ?_, e5⟩
        · unfold climbL
          rw [hgp, if_pos hle]
          show climbL _ _ n p (ofForest (forestL s.nreg s.regs) var p).parent = _
          simp only [ofForest, forestL_reg hp1]
          exact e1
        · rcases ReflTransGen.cases_head h1 with e | ⟨c, h3, h4⟩
          · exact .inl e.symm
          · have h3 : (s.regs t).parent = some c := h3
            rw [hp] at h3
            obtain rfl := Option.some.inj h3
            rcases e4 a h4 h2 with rfl | h5
            · exact .inr hle
            · exact .inr h5
      · refine ⟨t, some p, ?_, .refl, hp, fun a h1 h2 => .inl ?_, fun q hq => ?_⟩
        · unfold climbL
          rw [hgp, if_neg hle]
        · have h3 := upL_reg hF ht h1
          have h4 := upL_reg hF h3.1 h2
          by_contra hc
          have := h3.2.2 (Ne.symm hc)
          omega
        · obtain rfl := Option.some.inj hq
          omega
termination_by n => n

theorem varL_end (hI : LevelsOK D val) (hF : FloodedL D val s g lab L) (var : Nat → ℚ) (cfg : Cfg) {r : Nat} (hr : r < s.nreg) :
    ∃ t, ReflTransGen (UpL s) r t ∧ t < s.nreg ∧
      varL cfg (ofForest (forestL s.nreg s.regs) var) r = some
        (if (s.regs t).parent.isSome ∨ ((s.regs t).gray : Int) = (s.regs r).gray + cfg.delta then
          ratio32 cfg (s.regs t).size (s.regs r).size else -1) ∧
      (∀ a, ReflTransGen (UpL s) r a → ReflTransGen (UpL s) a t → a = r ∨ ((s.regs a).gray : Int) ≤ (s.regs r).gray + cfg.delta) ∧
      ∀ p, (s.regs t).parent = some p → ((s.regs r).gray : Int) + cfg.delta < ((s.regs p).gray : Int) := by
  obtain ⟨t, o, e1, e2, rfl, e4, e5⟩ := climbL_end hI hF var ((s.regs r).gray + cfg.delta) 256 r hr (by omega)
  have ht := (upL_reg hF hr e2).1
  refine ⟨t, e2, ht, ?_, e4, e5⟩
  unfold varL
  have h1 : ((ofForest (forestL s.nreg s.regs) var r)).gray = (s.regs r).gray ∧
      ((ofForest (forestL s.nreg s.regs) var r)).parent = (s.regs r).parent ∧
      ((ofForest (forestL s.nreg s.regs) var r)).size = (s.regs r).size := by
    simp only [ofForest, forestL_reg hr, and_self]
  have h2 : ((ofForest (forestL s.nreg s.regs) var t)).gray = (s.regs t).gray ∧
      ((ofForest (forestL s.nreg s.regs) var t)).size = (s.regs t).size := by
    simp only [ofForest, forestL_reg ht, and_self]
  rw [h1.1, h1.2.1, e1]
  simp only [Option.map_some, h2.1, h2.2, h1.2.2]

theorem pass_iff {var : Nat → ℚ} {r : Nat} (hr : r < s.nreg) (hd : 1 ≤ cfg.delta) {v : ℚ}
    (hv : varL cfg (ofForest (forestL s.nreg s.regs) var) r = some v) :
    Linear.Pass cfg (ofForest (forestL s.nreg s.regs) var) r ↔ v ≤ cfg.stable ∧ cfg.minPoint ≤ ((s.regs r).size : Int) ∧
      ((s.regs r).size : Int) ≤ cfg.maxPoint ∧ (s.regs r).parent ≠ none := by
  unfold Linear.Pass
  rw [hv]
  simp only [badSize, ofForest, forestL_reg hr, Bool.or_eq_false_iff, decide_eq_false_iff_not, not_lt,
    Option.isNone_eq_false_iff, Option.isSome_iff_ne_none, and_assoc]
  constructor
  · rintro ⟨h1, h2⟩; exact ⟨h1 (by omega) v rfl, h2⟩
  · rintro ⟨h1, h2⟩; exact ⟨fun _ w hw => by rw [← Option.some.inj hw]; exact h1, h2⟩

/-! ### C78 -/

/-- **C78** (partial) With a mask image, `delta` at least 1, no suppression and no duplicate removal: a region that lies in a
region of a higher level, above its own level plus `delta`, that does not reach the masked pixels is reported if and
only if it is selected.  (The full property: every region.) -/
theorem C78_masked_selection_partial (hI : BytesOK D src) (h0 : b.top 0 = 0) (var : Nat → ℚ) (hd : 1 ≤ cfg.delta)
    (hn : cfg.nms < 0) (hdup : cfg.dup ≤ 0) :
    ∃ s g lab out, Linear.buildTree D mask gm src b = .done s ∧
      IsComponentTree (if D.eight then Adj8 D.w D.h else Adj4 D.w D.h) (fun p => cellVal mask gm src p.1 p.2)
        (pixels D.w D.h) (treeOfL s g lab) ∧
      Linear.recognize cfg D s var = some out ∧
      ∀ r < s.nreg, ∀ a, (treeOfL s g lab).Anc r a → (g r : Int) + cfg.delta < g a → g a < 256 →
        (r ∈ out.reported ↔ Selected (treeOfL s g lab) (limits cfg) r) := by
  obtain ⟨s, g, lab, L, h1, hF⟩ := floodedL (mask := mask) (gm := gm) hI h0
  have hL := hI.levels mask gm
  obtain ⟨out, h2, -, -, -, h3⟩ := recogL_any hL hF cfg var
  refine ⟨s, g, lab, out, h1, hF.tree, h2, fun r hr a hra hlt h256 => ?_⟩
  have hra : ReflTransGen (UpL s) r a := hra
  rw [h3 (fun h => absurd h.2 (not_le.2 hn)) hdup r]
  obtain ⟨t, e1, ht, e2, e3, e4⟩ := varL_end hL hF var cfg hr
  have hgr : (s.regs r).gray = g r := by
    rw [hF.gray r hr]
    have := (upL_reg hF hr hra).2.1
    exact Nat.mod_eq_of_lt (by omega)
  have hga : (s.regs a).gray = g a := by rw [hF.gray a (upL_reg hF hr hra).1]; exact Nat.mod_eq_of_lt h256
  -- the loop ends below `a`
  have hta : ReflTransGen (UpL s) t a ∧ t ≠ a := by
    have hne : t ≠ a := by
      rintro rfl
      rcases e3 t e1 .refl with e | e
      · rw [e] at hlt; omega
      · rw [hga, hgr] at e; omega
    refine ⟨?_, hne⟩
    rcases RegionTree.Anc.total (T := treeOfL s g lab) e1 hra with h | h
    · exact h
    · rcases e3 a hra h with e | e
      · rw [e] at hlt; omega
      · rw [hga, hgr] at e; omega
  have hpar : (s.regs t).parent.isSome := by
    rcases ReflTransGen.cases_head hta.1 with e | ⟨c, h4, _⟩
    · exact absurd e hta.2
    · rw [show (s.regs t).parent = some c from h4]; rfl
  have hgt : (s.regs t).gray = g t := by
    rw [hF.gray t ht]
    have := (upL_reg hF ht hta.1).2.1
    exact Nat.mod_eq_of_lt (by omega)
  have hW : Widest (treeOfL s g lab) (g r + cfg.delta) r t := by
    refine ⟨e1, ?_, fun p hp => ?_⟩
    · rcases e3 t e1 .refl with e | e
      · exact .inl e
      · right
        show (g t : Int) ≤ _
        rw [hgt, hgr] at e; exact e
    · have h5 := e4 p hp
      have hpr := (hF.tree.parent_reg t ht p hp).1
      have h6 := hF.gray p hpr
      have h7 := Nat.mod_le (g p) 256
      show (g r : Int) + cfg.delta < (g p : Int)
      rw [hgr, h6] at h5
      omega
  have hu : ∀ t', Widest (treeOfL s g lab) (g r + cfg.delta) r t' → t' = t := by
    intro t' hW'
    have key : ∀ x y, Widest (treeOfL s g lab) (g r + cfg.delta) r x → Widest (treeOfL s g lab) (g r + cfg.delta) r y →
        ReflTransGen (UpL s) x y → y = x := by
      intro x y hx hy hxy
      rcases ReflTransGen.cases_head hxy with e | ⟨c, h4, h5⟩
      · exact e.symm
      · exfalso
        have hxr := (upL_reg hF hr hx.anc).1
        have hcr := (hF.tree.parent_reg x hxr c h4).1
        have h6 : (g r : Int) + cfg.delta < (g c : Int) := hx.last c h4
        have h7 := (upL_reg hF hcr h5).2.1
        rcases hy.within with e | e
        · rw [e] at h7
          have : (g c : Int) ≤ g r := by exact_mod_cast h7
          omega
        · have e : (g y : Int) ≤ g r + cfg.delta := e
          omega
    rcases RegionTree.Anc.total (T := treeOfL s g lab) hW.anc hW'.anc with h | h
    · exact key t t' hW hW' h
    · exact (key t' t hW' hW h).symm
  have hS : ∀ v, Stability (treeOfL s g lab) (limits cfg) r (some v) ↔ v = ratio32 cfg (s.regs t).size (s.regs r).size := by
    intro v
    constructor
    · rintro ⟨t', hW', hc⟩
      obtain rfl := hu t' hW'
      rcases hc with ⟨_, e⟩ | ⟨_, e⟩
      · exact Option.some.inj e
      · cases e
    · rintro rfl
      exact ⟨t, hW, .inl ⟨.inl hpar, rfl⟩⟩
  rw [if_pos (.inl hpar)] at e2
  rw [pass_iff hr hd e2]
  constructor
  · rintro ⟨_, k1, k2, k3, k4⟩
    exact ⟨hr, fun v hv => by rw [(hS v).1 hv]; exact k1, k2, k3, k4, fun h => absurd h (not_le.2 hn)⟩
  · intro hs
    exact ⟨hr, hs.stable _ ((hS _).2 rfl), hs.min, hs.max, hs.parent⟩

/-- **C78** is false of the code: a region is reported whatever its stability if all larger regions that do not reach the
masked pixels are within `delta` levels. -/
theorem C78_masked_unchecked (hI : BytesOK D src) (h0 : b.top 0 = 0) (var : Nat → ℚ) (hd : 1 ≤ cfg.delta)
    (hst : -1 ≤ cfg.stable) (hn : cfg.nms < 0) (hdup : cfg.dup ≤ 0) :
    ∃ s g lab out, Linear.buildTree D mask gm src b = .done s ∧
      IsComponentTree (if D.eight then Adj8 D.w D.h else Adj4 D.w D.h) (fun p => cellVal mask gm src p.1 p.2)
        (pixels D.w D.h) (treeOfL s g lab) ∧
      Linear.recognize cfg D s var = some out ∧
      ∀ r < s.nreg, cfg.minPoint ≤ ((s.regs r).size : Int) → ((s.regs r).size : Int) ≤ cfg.maxPoint → g r < 256 →
        (∃ a, (treeOfL s g lab).Anc r a ∧ g a = 256) →
        (∀ a, (treeOfL s g lab).Anc r a → (g a : Int) ≤ g r + cfg.delta ∨ g a = 256) → r ∈ out.reported := by
  obtain ⟨s, g, lab, L, h1, hF⟩ := floodedL (mask := mask) (gm := gm) hI h0
  have hL := hI.levels mask gm
  obtain ⟨out, h2, -, -, -, h3⟩ := recogL_any hL hF cfg var
  refine ⟨s, g, lab, out, h1, hF.tree, h2, fun r hr hmin hmax hlt ⟨a, hra, ha⟩ hall => ?_⟩
  have hra : ReflTransGen (UpL s) r a := hra
  rw [h3 (fun h => absurd h.2 (not_le.2 hn)) hdup r]
  obtain ⟨t, e1, ht, e2, e3, e4⟩ := varL_end hL hF var cfg hr
  have hgr : (s.regs r).gray = g r := by rw [hF.gray r hr]; exact Nat.mod_eq_of_lt hlt
  have hnone : (s.regs t).parent = none := by
    cases hp : (s.regs t).parent with
    | none => rfl
    | some p =>
      exfalso
      have h5 := e4 p hp
      have hpr := (hF.tree.parent_reg t ht p hp).1
      have h6 := hF.gray p hpr
      rcases hall p (e1.tail hp) with h7 | h7
      · have h8 := Nat.mod_le (g p) 256
        rw [hgr, h6] at h5
        omega
      · rw [hgr, h6, h7] at h5
        push_cast at h5
        omega
  have hta : a = t := by
    rcases RegionTree.Anc.total (T := treeOfL s g lab) e1 hra with h | h
    · rcases ReflTransGen.cases_head h with e | ⟨c, h4, _⟩
      · exact e.symm
      · have h4 : (s.regs t).parent = some c := h4
        rw [hnone] at h4; cases h4
    · have h4 := upL_reg hF (upL_reg hF hr hra).1 h
      have h5 := level_le hL hF ht
      by_contra hc
      have := h4.2.2 hc
      omega
  subst hta
  have hga : (s.regs a).gray = 0 := by rw [hF.gray a ht, ha]
  rw [if_neg] at e2
  · rw [pass_iff hr hd e2]
    refine ⟨hr, hst, hmin, hmax, fun hp => ?_⟩
    rcases ReflTransGen.cases_head hra with e | ⟨c, h4, _⟩
    · rw [e] at hlt; omega
    · have h4 : (s.regs r).parent = some c := h4
      rw [hp] at h4; cases h4
  · rw [hnone, hga]
    simp
    omega

/-! ### A row of three pixels -/

/-- A component tree of a row of three pixels with increasing values. -/
theorem row_tree {ι : Type} {f : Nat × Nat → Nat} {T : RegionTree (Nat × Nat) ι} (hT : IsComponentTree (Adj4 3 1) f (pixels 3 1) T)
    (h01 : f (0, 0) < f (1, 0)) (h12 : f (1, 0) < f (2, 0)) :
    T.parent (T.lab (0, 0)) = some (T.lab (1, 0)) ∧ T.parent (T.lab (1, 0)) = some (T.lab (2, 0)) ∧
      T.parent (T.lab (2, 0)) = none ∧ T.size (T.lab (0, 0)) = 1 ∧ T.size (T.lab (1, 0)) = 2 ∧
      T.size (T.lab (2, 0)) = 3 := by
  have m0 : (0, 0) ∈ pixels 3 1 := by decide
  have m1 : (1, 0) ∈ pixels 3 1 := by decide
  have m2 : (2, 0) ∈ pixels 3 1 := by decide
  have hpx : ∀ q ∈ pixels 3 1, q = (0, 0) ∨ q = (1, 0) ∨ q = (2, 0) := by decide
  have a01 : Adj4 3 1 (0, 0) (1, 0) := ⟨by decide, by decide, by decide⟩
  have a12 : Adj4 3 1 (1, 0) (2, 0) := ⟨by decide, by decide, by decide⟩
  have c10 : LConn (Adj4 3 1) f (f (1, 0)) (1, 0) (0, 0) := .single ⟨adj4_symm _ _ a01, le_refl _, le_of_lt h01⟩
  have c21 : LConn (Adj4 3 1) f (f (2, 0)) (2, 0) (1, 0) := .single ⟨adj4_symm _ _ a12, le_refl _, le_of_lt h12⟩
  have c20 : LConn (Adj4 3 1) f (f (2, 0)) (2, 0) (0, 0) :=
    .tail c21 ⟨adj4_symm _ _ a01, le_of_lt h12, by omega⟩
  have below : ∀ {l p q}, LConn (Adj4 3 1) f l p q → f p ≤ l → f q ≤ l := by
    intro l p q h hp
    rcases ReflTransGen.cases_tail h with e | ⟨c, -, h5⟩
    · rw [e]; exact hp
    · exact h5.2.2
  have hun : ∀ z ∈ pixels 3 1, ∀ y ∈ pixels 3 1, (T.Under (T.lab z) y ↔ LConn (Adj4 3 1) f (f z) z y) := by
    intro z hz y hy
    have := hT.comp (T.lab z) (hT.lab_reg z hz) z hz .refl y hy
    rwa [hT.lab_gray z hz] at this
  refine ⟨?_, ?_, ?_, ?_, ?_, ?_⟩
  · rw [hT.parent_iff m0 m1]
    refine ⟨h01, c10, fun z hz h1 h2 => ?_⟩
    rcases hpx z hz with rfl | rfl | rfl
    · omega
    · exact .refl
    · exact c21
  · rw [hT.parent_iff m1 m2]
    refine ⟨h12, c21, fun z hz h1 h2 => ?_⟩
    rcases hpx z hz with rfl | rfl | rfl
    · omega
    · omega
    · exact .refl
  · cases hp : T.parent (T.lab (2, 0)) with
    | none => rfl
    | some x =>
      obtain ⟨k1, k2⟩ := hT.parent_reg _ (hT.lab_reg _ m2) x hp
      obtain ⟨z, hz, rfl⟩ := hT.reg_lab x k1
      rw [hT.lab_gray _ m2, hT.lab_gray z hz] at k2
      rcases hpx z hz with rfl | rfl | rfl <;> omega
  · rw [hT.size_eq _ (hT.lab_reg _ m0) {(0, 0)}]
    · rfl
    · intro q
      rw [Finset.mem_singleton]
      constructor
      · rintro rfl; exact ⟨m0, .refl⟩
      · rintro ⟨hq, h⟩
        have := below ((hun _ m0 q hq).1 h) (le_refl _)
        rcases hpx q hq with rfl | rfl | rfl
        · rfl
        · omega
        · omega
  · rw [hT.size_eq _ (hT.lab_reg _ m1) {(0, 0), (1, 0)}]
    · rfl
    · intro q
      rw [Finset.mem_insert, Finset.mem_singleton]
      constructor
      · rintro (rfl | rfl)
        · exact ⟨m0, (hun _ m1 _ m0).2 c10⟩
        · exact ⟨m1, .refl⟩
      · rintro ⟨hq, h⟩
        have := below ((hun _ m1 q hq).1 h) (le_refl _)
        rcases hpx q hq with rfl | rfl | rfl
        · exact .inl rfl
        · exact .inr rfl
        · omega
  · rw [hT.size_eq _ (hT.lab_reg _ m2) {(0, 0), (1, 0), (2, 0)}]
    · rfl
    · intro q
      simp only [Finset.mem_insert, Finset.mem_singleton]
      constructor
      · rintro (rfl | rfl | rfl)
        · exact ⟨m0, (hun _ m2 _ m0).2 c20⟩
        · exact ⟨m1, (hun _ m2 _ m1).2 c21⟩
        · exact ⟨m2, .refl⟩
      · rintro ⟨hq, _⟩; exact hpx q hq

/-- A row of three pixels: 10, 11, 200. -/
def rowImg : Nat → Nat → Nat := fun x _ => if x = 0 then 10 else if x = 1 then 11 else 200

def dimR : Dim := { w := 3, h := 1, eight := false }

/-- The third pixel is masked out. -/
def rowMask : Nat → Nat → Nat := fun x _ => if x = 2 then 0 else 255

/-- Nothing may grow within one level. -/
def rowCfg : Cfg where
  delta := 1
  minPoint := 1
  maxPoint := 100
  stable := 0
  nms := -1
  dup := 0
  r32 := id
  r64 := id

theorem bytesR : BytesOK dimR rowImg :=
  ⟨by decide, by decide, fun x y _ _ => by unfold rowImg; split <;> [skip; split] <;> decide⟩

example : BytesOK dimR rowImg ∧ bufS.top 0 = 0 ∧ 1 ≤ rowCfg.delta ∧ -1 ≤ rowCfg.stable ∧ rowCfg.nms < 0 ∧ rowCfg.dup ≤ 0 :=
  ⟨bytesR, rfl, by decide, by norm_num [rowCfg], by norm_num [rowCfg], by norm_num [rowCfg]⟩

/-- A row 10, 200 and a masked pixel: the region of the first pixel lies in one of level 200. -/
example : ∃ s g lab out, Linear.buildTree dimR (.image rowMask) 0 (fun x _ => if x = 0 then 10 else 200) bufS = .done s ∧
    Linear.recognize rowCfg dimR s (fun _ => 0) = some out ∧ lab (0, 0) < s.nreg ∧
    (treeOfL s g lab).Anc (lab (0, 0)) (lab (1, 0)) ∧ (g (lab (0, 0)) : Int) + rowCfg.delta < g (lab (1, 0)) ∧
    g (lab (1, 0)) < 256 := by
  have hB : BytesOK dimR (fun x _ => if x = 0 then 10 else 200) :=
    ⟨by decide, by decide, fun x y _ _ => by split <;> decide⟩
  obtain ⟨s, g, lab, out, h1, hT, h2, -⟩ := C78_masked_selection_partial (cfg := rowCfg) (mask := .image rowMask) (gm := 0)
    (b := bufS) hB rfl (fun _ => 0) (by decide) (by norm_num [rowCfg]) (by norm_num [rowCfg])
  have hT : IsComponentTree (Adj4 3 1) (fun p => cellVal (.image rowMask) 0 (fun x _ => if x = 0 then 10 else 200) p.1 p.2)
    (pixels 3 1) (treeOfL s g lab) := hT
  have g0 : g (lab (0, 0)) = 10 := hT.lab_gray (0, 0) (by decide)
  have g1 : g (lab (1, 0)) = 200 := hT.lab_gray (1, 0) (by decide)
  exact ⟨s, g, lab, out, h1, h2, hT.lab_reg (0, 0) (by decide), .single (row_tree hT (by decide) (by decide)).1,
    by rw [g0, g1]; decide, by rw [g1]; decide⟩

/-- **C78** is false of the code: the first pixel is reported although with one more level it grows to twice its
size and no growth is allowed. -/
theorem C78_unstable_reported (h0 : b.top 0 = 0) (var : Nat → ℚ) :
    ∃ s g lab out, Linear.buildTree dimR (.image rowMask) 0 rowImg b = .done s ∧
      IsComponentTree (Adj4 3 1) (fun p => cellVal (.image rowMask) 0 rowImg p.1 p.2) (pixels 3 1) (treeOfL s g lab) ∧
      Linear.recognize rowCfg dimR s var = some out ∧
      lab (0, 0) ∈ out.reported ∧ Stability (treeOfL s g lab) (limits rowCfg) (lab (0, 0)) (some 1) ∧
      ¬ Selected (treeOfL s g lab) (limits rowCfg) (lab (0, 0)) := by
  obtain ⟨s, g, lab, out, h1, hT, h2, h3⟩ := C78_masked_unchecked (cfg := rowCfg) (mask := .image rowMask) (gm := 0) (b := b)
    bytesR h0 var (by decide) (by norm_num [rowCfg]) (by norm_num [rowCfg]) (by norm_num [rowCfg])
  have hT : IsComponentTree (Adj4 3 1) (fun p => cellVal (.image rowMask) 0 rowImg p.1 p.2) (pixels 3 1) (treeOfL s g lab) := hT
  obtain ⟨p0, p1, p2, s0, s1, s2⟩ := row_tree hT (by decide) (by decide)
  have g0 : g (lab (0, 0)) = 10 := hT.lab_gray (0, 0) (by decide)
  have g1 : g (lab (1, 0)) = 11 := hT.lab_gray (1, 0) (by decide)
  have g2 : g (lab (2, 0)) = 256 := hT.lab_gray (2, 0) (by decide)
  have hr : lab (0, 0) < s.nreg := hT.lab_reg (0, 0) (by decide)
  have s0 : (s.regs (lab (0, 0))).size = 1 := s0
  have hanc : ∀ a, (treeOfL s g lab).Anc (lab (0, 0)) a → a = lab (0, 0) ∨ a = lab (1, 0) ∨ a = lab (2, 0) := by
    intro a ha
    rcases ReflTransGen.cases_head ha with e | ⟨c, e1, h4⟩
    · exact .inl e.symm
    · obtain rfl := Option.some.inj (p0.symm.trans e1)
      rcases ReflTransGen.cases_head h4 with e | ⟨c, e2, h5⟩
      · exact .inr (.inl e.symm)
      · obtain rfl := Option.some.inj (p1.symm.trans e2)
        rcases ReflTransGen.cases_head h5 with e | ⟨c, e3, h6⟩
        · exact .inr (.inr e.symm)
        · have := p2.symm.trans e3
          cases this
  have hS : Stability (treeOfL s g lab) (limits rowCfg) (lab (0, 0)) (some 1) := by
    refine ⟨lab (1, 0), ⟨.single p0, .inr ?_, fun p hp => ?_⟩, .inl ⟨.inl ?_, ?_⟩⟩
    · show (g (lab (1, 0)) : Int) ≤ (g (lab (0, 0)) : Int) + 1
      rw [g0, g1]; decide
    · obtain rfl := Option.some.inj (p1.symm.trans hp)
      show (g (lab (0, 0)) : Int) + 1 < (g (lab (2, 0)) : Int)
      rw [g0, g2]; decide
    · show ((treeOfL s g lab).parent (lab (1, 0))).isSome
      have p1' : (treeOfL s g lab).parent (lab (1, 0)) = some (lab (2, 0)) := p1
      rw [p1']; rfl
    · have s1' : (treeOfL s g lab).size (lab (1, 0)) = 2 := s1
      have s0' : (treeOfL s g lab).size (lab (0, 0)) = 1 := s0
      rw [s1', s0']
      norm_num [limits, rowCfg]
  refine ⟨s, g, lab, out, h1, hT, h2, ?_, hS, fun hs => ?_⟩
  · refine h3 _ hr (by rw [s0]; decide) (by rw [s0]; decide) (by rw [g0]; decide)
      ⟨lab (2, 0), ReflTransGen.head p0 (ReflTransGen.single p1), g2⟩ fun a ha => ?_
    rcases hanc a ha with rfl | rfl | rfl
    · left; rw [g0]; decide
    · left; rw [g0, g1]; decide
    · exact .inr g2
  · have := hs.stable 1 hS
    norm_num [limits, rowCfg] at this

/-! ### C77: mask values in the dark pass, rectangles -/

/-- Everything within the size limits is reported. -/
def allCfg : Cfg where
  delta := 0
  minPoint := 1
  maxPoint := 100
  stable := 0
  nms := -1
  dup := 0
  r32 := id
  r64 := id

/-- The first pixel of the row is delivered whenever it has its plain value. -/
theorem row_delivered (h0 : b.top 0 = 0) (var : Nat → ℚ) (hm : ∀ x y, cellVal mask 0 rowImg x y = rowImg x y) :
    ∃ s out x, Linear.buildTree dimR mask 0 rowImg b = .done s ∧ Linear.recognize allCfg dimR s var = some out ∧
      extractL 0 s out = some x ∧ ∃ rec ∈ x.recs, ∃ pts, readShare x rec = some pts ∧ (0, 0) ∈ pts := by
  obtain ⟨s, g, lab, L, h1, hF⟩ := floodedL (mask := mask) (gm := 0) bytesR h0
  have hL := bytesR.levels mask 0
  obtain ⟨out, x, h2, h3, -, h4, -⟩ := extractedL hL hF (by decide) allCfg 0 var
  obtain ⟨out', h2', -, -, -, h5⟩ := recogL_any hL hF allCfg var
  obtain rfl := Option.some.inj (h2.symm.trans h2')
  have hT : IsComponentTree (Adj4 3 1) (fun p => cellVal mask 0 rowImg p.1 p.2) (pixels 3 1) (treeOfL s g lab) := hF.tree
  obtain ⟨p0, p1, p2, s0, s1, s2⟩ := row_tree hT (by simp only [hm]; decide) (by simp only [hm]; decide)
  have hr : lab (0, 0) < s.nreg := hT.lab_reg (0, 0) (by decide)
  have s0 : (s.regs (lab (0, 0))).size = 1 := s0
  have p0 : (s.regs (lab (0, 0))).parent = some (lab (1, 0)) := p0
  have hrep : lab (0, 0) ∈ out.reported := by
    rw [h5 (by decide) (by norm_num [allCfg])]
    refine ⟨hr, fun h => absurd h (by decide), ?_⟩
    simp [badSize, ofForest, forestL_reg hr, s0, p0, allCfg]
  obtain ⟨i, hi, e⟩ := List.getElem_of_mem hrep
  have hi' : i < x.recs.length := by rw [← h4.length_eq]; exact hi
  have hR := (List.forall₂_iff_get.1 h4).2 i hi hi'
  obtain ⟨pts, k1, -, -, -, k2⟩ := hR.read
  refine ⟨s, out, x, h1, h2, h3, x.recs[i], List.getElem_mem _, pts, k1, (k2 _).2 ⟨by decide, ?_⟩⟩
  rw [List.get_eq_getElem, e]
  exact .refl

/-- **C77** is false of the code for a mask value in the dark pass: with mask value 10 the first pixel, of value 10, is
delivered. -/
theorem C77_mask_value_dark_violated (h0 : b.top 0 = 0) (var : Nat → ℚ) :
    ∃ s out x, Linear.buildTree dimR (.value 10) 0 rowImg b = .done s ∧ Linear.recognize allCfg dimR s var = some out ∧
      extractL 0 s out = some x ∧
      ∃ rec ∈ x.recs, ∃ pts, readShare x rec = some pts ∧ ∃ q ∈ pts, rowImg q.1 q.2 = 10 := by
  obtain ⟨s, out, x, h1, h2, h3, rec, h4, pts, h5, h6⟩ := row_delivered (mask := .value 10) h0 var
    (fun x y => by simp [cellVal])
  exact ⟨s, out, x, h1, h2, h3, rec, h4, pts, h5, _, h6, by decide⟩

/-- **C77** is false of the code for a mask rectangle: whatever the rectangle, the first pixel is delivered. -/
theorem C77_mask_rect_violated (h0 : b.top 0 = 0) (var : Nat → ℚ) (l t w h : Nat) :
    ∃ s out x, Linear.buildTree dimR (.rect l t w h) 0 rowImg b = .done s ∧ Linear.recognize allCfg dimR s var = some out ∧
      extractL 0 s out = some x ∧
      ∃ rec ∈ x.recs, ∃ pts, readShare x rec = some pts ∧ (0, 0) ∈ pts :=
  row_delivered h0 var (fun x y => by simp [cellVal])

/-! ### C76: the reports may differ -/

/-- The pixels `S` are delivered with gray level `gray` in some record. -/
def DeliveredL (x : XOutL) (S : Finset (Nat × Nat)) (gray : Nat) : Prop :=
  ∃ rec ∈ x.recs, rec.gray = gray ∧ ∃ pts, readShare x rec = some pts ∧ ∀ q, q ∈ S ↔ q ∈ pts

/-- What is delivered is what recognition reports. -/
theorem deliveredL_iff {x : XOutL} {l : List Nat} (h : List.Forall₂ (Recorded D cfg gm s g lab x) l x.recs)
    (S : Finset (Nat × Nat)) (gray : Nat) :
    DeliveredL x S gray ↔ ∃ r ∈ l, (if gm = 0 then g r else 255 - g r) = gray ∧
      ∀ q, q ∈ S ↔ q ∈ pixels D.w D.h ∧ (treeOfL s g lab).Under r q := by
  obtain ⟨h1, h2⟩ := List.forall₂_iff_get.1 h
  constructor
  · rintro ⟨rec, hrec, hg, pts, k1, k2⟩
    obtain ⟨i, hi, rfl⟩ := List.getElem_of_mem hrec
    have hR := h2 i (by omega) hi
    obtain ⟨pts', k3, -, -, -, k4⟩ := hR.read
    obtain rfl := Option.some.inj (k1.symm.trans k3)
    exact ⟨_, List.get_mem _ _, hR.gray.symm.trans hg, fun q => (k2 q).trans (k4 q)⟩
  · rintro ⟨r, hr, hg, k⟩
    obtain ⟨i, hi, rfl⟩ := List.getElem_of_mem hr
    have hR := h2 i hi (by omega)
    obtain ⟨pts, k3, -, -, -, k4⟩ := hR.read
    exact ⟨_, List.get_mem _ _, hR.gray.trans hg, pts, k3, fun q => (k q).trans (k4 q).symm⟩

/-- **C76** (partial) As long as the duplicate threshold is below 2/5 the records of the linear detector in
4-neighbour mode, without a mask, hold the same regions as V2 and V1 report with any number of threads.  (The full
property: for every threshold.) -/
theorem C76_linear_records_partial {w h : Nat} {img : Nat → Nat → Nat} {gm : Nat} {T : RegionTree (Nat × Nat) (Nat × Nat)}
    {out : Recognized (Nat × Nat)} (var : Nat → ℚ) (hI : ImageOK w h img gm) (hg : gm = 0 ∨ gm = 255) (hc : w * h < 2 ^ 23)
    (h0 : b.top 0 = 0) (h32 : Rounding cfg.r32) (h64 : Rounding cfg.r64) (hst : -1 ≤ cfg.stable) (hde : 1 ≤ cfg.delta)
    (hd : cfg.dup < cfg.r64 (2 / 5)) (hD : Detected cfg w h img gm T out) :
    ∃ s outL x, Linear.buildTree { w := w, h := h, eight := false } .null gm img b = .done s ∧
      Linear.recognize cfg { w := w, h := h, eight := false } s var = some outL ∧ extractL gm s outL = some x ∧
      x.recs.length = out.reported.length ∧
      ∀ S lev, lev < 256 → (DeliveredL x S (lev ^^^ gm) ↔ Delivered (pixels w h) T out.reported S lev) := by
  have hd' : cfg.dup < cfg.r64 (3 / 5) := lt_of_lt_of_le hd (h64.mono _ _ (by norm_num))
  obtain ⟨k1, arr, gs, k2⟩ := hD.result hI (by omega) h32 h64 hst hde hd'
  have hB : BytesOK { w := w, h := h, eight := false } img := ⟨hI.w_pos, hI.h_pos, hI.img_lt⟩
  have hx : ∀ v, v < 256 → (if gm = 0 then v else 255 - v) = v ^^^ gm := by
    intro v hv
    rcases hg with rfl | rfl
    · simp
    · rw [FloodMem.xor_255 _ hv]; rfl
  have hv : ∀ x y, x < w → y < h → cellVal .null gm img x y = img x y ^^^ gm := fun x y hx' hy =>
    hx _ (hI.img_lt x y hx' hy)
  have hU : Unmasked { w := w, h := h, eight := false } .null gm img := by
    intro x y hx hy
    rw [hv x y hx hy]; exact Nat.xor_lt_two_pow (n := 8) (hI.img_lt _ _ hx hy) hI.gm_lt
  obtain ⟨s, g, lab, L, h1, hF⟩ := floodedL (mask := .null) (gm := gm) hB h0
  obtain ⟨outL, x, h2, h3, -, h4, -⟩ := extractedL (hB.levels .null gm) hF hc cfg gm var
  obtain ⟨outL', arr', gs', e1, e2⟩ := result_linear (cfg := cfg) hU hF (by show w * h < _; omega) var h32 h64 hst hde
  obtain rfl := Option.some.inj (h2.symm.trans e1)
  obtain ⟨hT, hu, hgr⟩ := treeL_of hU hF
  have hT' : IsComponentTree (Adj4 w h) (fun p => img p.1 p.2 ^^^ gm) (pixels w h) (treeL s lab) := by
    refine IsComponentTree.values hT (fun p hp => ?_) fun p q hpq => ⟨hpq.1, hpq.2.1⟩
    rw [mem_pixels] at hp; exact (hv _ _ hp.1 hp.2).symm
  obtain ⟨f1, -, f3⟩ := same_report hT' k1 (graysV1 hI) ⟨(0, 0), mem_pixels.2 ⟨hI.w_pos, hI.h_pos⟩⟩ h32 h64 hd e2 k2
  refine ⟨s, outL, x, h1, h2, h3, h4.length_eq.symm.trans f1, fun S lev hlev => ?_⟩
  rw [deliveredL_iff h4, ← f3]
  have hrep : ∀ r ∈ outL.reported, r < s.nreg ∧ g r < 256 := by
    intro r hr
    obtain ⟨i, hi, rfl⟩ := List.getElem_of_mem hr
    have hR := (List.forall₂_iff_get.1 h4).2 i hi (by rw [← h4.length_eq]; exact hi)
    exact ⟨hR.reg, hR.lev⟩
  have inj : ∀ r ∈ outL.reported, ((if gm = 0 then g r else 255 - g r) = lev ^^^ gm ↔ (treeL s lab).gray r = lev) := by
    intro r hr
    obtain ⟨a1, a2⟩ := hrep r hr
    have e : (treeL s lab).gray r = g r := by
      show (forestL s.nreg s.regs r).gray = _
      rw [forestL_reg a1]; exact hgr r a1
    rw [hx _ a2, e]
    constructor
    · intro h'
      have := congrArg (· ^^^ gm) h'
      simpa [Nat.xor_assoc] using this
    · rintro rfl; rfl
  constructor
  · rintro ⟨r, hr, a1, a2⟩
    refine ⟨r, hr, (inj r hr).1 a1, fun q => (a2 q).trans (and_congr_right fun hq => ?_)⟩
    exact (hu r q hq).symm
  · rintro ⟨r, hr, a1, a2⟩
    refine ⟨r, hr, (inj r hr).2 a1, fun q => (a2 q).trans (and_congr_right fun hq => ?_)⟩
    exact hu r q hq

/-- A run of V2 with one thread on a 3×2 image. -/
example : ∃ T out, Detected sampleCfg 3 2 sampleImg 0 T out ∧ ImageOK 3 2 sampleImg 0 ∧
    sampleCfg.dup < sampleCfg.r64 (2 / 5) ∧ bufS.top 0 = 0 := by
  have hI : ImageOK 3 2 sampleImg 0 :=
    ⟨by decide, by decide, fun x y _ _ => by unfold sampleImg; split <;> [skip; split] <;> decide, by decide⟩
  have hst : -1 ≤ sampleCfg.stable := by norm_num [sampleCfg]
  obtain ⟨ms₁, h2⟩ := patchTrees_exist (n := 1) (hp := 1) (vp := 1) rfl (by decide) (by decide) hI (by decide) (by decide)
  obtain ⟨W₁, out₁, arr₁, gs₁, b1, b2, b3, b4⟩ := C23_image_serial (cfg := sampleCfg) (msize := 0) (exceed := 0) h2 (le_refl _)
    (fun _ => 0) rounding_id rounding_id hst (by decide)
  exact ⟨_, out₁, .one _ h2 (le_refl _) b1 b3, hI, by norm_num [sampleCfg], rfl⟩

/-- **C76** is false of the code for large thresholds: with threshold 2 the linear detector and V2 with some number of
threads deliver different regions. -/
theorem C76_reports_differ (h0 : b.top 0 = 0) (var : Nat → ℚ) : ∃ s outL x T out,
    Linear.buildTree { w := 8, h := 4, eight := false } .null 0 hookImg b = .done s ∧
    Linear.recognize hookCfg { w := 8, h := 4, eight := false } s var = some outL ∧ extractL 0 s outL = some x ∧
    Detected hookCfg 8 4 hookImg 0 T out ∧
    ¬ ∀ S lev, lev < 256 → (DeliveredL x S (lev ^^^ 0) ↔ Delivered (pixels 8 4) T out.reported S lev) := by
  have hB : BytesOK { w := 8, h := 4, eight := false } hookImg := ⟨hook_ok.w_pos, hook_ok.h_pos, hook_ok.img_lt⟩
  obtain ⟨s, outL, x, h1, h2, h3, -⟩ := C75_linear_extraction (mask := .null) (gm := 0) hB h0 (by decide) hookCfg var
  obtain ⟨T, T', out, out', e1, e2, e3, e4⟩ := C70_threads_matter (fun _ => 0) 0 0
  by_cases hc : ∀ S lev, lev < 256 → (DeliveredL x S (lev ^^^ 0) ↔ Delivered (pixels 8 4) T out.reported S lev)
  · refine ⟨s, outL, x, T', out', h1, h2, h3, e2, fun hc' => e4 ?_⟩
    exact (hc' _ 1 (by decide)).1 ((hc _ 1 (by decide)).2 e3)
  · exact ⟨s, outL, x, T, out, h1, h2, h3, e1, hc⟩

end Verif.Props
