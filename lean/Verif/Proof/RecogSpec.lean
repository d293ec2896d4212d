import Verif.Proof.RecogMain
import Verif.Proof.Tree

/-!
# Proof: the tree in memory and the specification of selection
-/

namespace Verif.Spec

open Relation (ReflTransGen)

variable {α ι : Type}

/-- A component tree of an image with 256 gray levels satisfies `RegionTree.Ok`. -/
theorem IsComponentTree.ok {adj : α → α → Prop} {g : α → Nat} {px : Finset α} {T : RegionTree α ι}
    (h : IsComponentTree adj g px T) (hg : ∀ p ∈ px, g p < 256) : T.Ok := by
  classical
  have hlab : ∀ r, T.isReg r → ∀ p ∈ px, T.lab p = r → T.Under r p := by
    intro r _ p _ e; unfold RegionTree.Under; rw [e]
  have hsz : ∀ r, T.isReg r → T.size r = (px.filter fun p => T.Under r p).card := by
    intro r hr
    exact h.size_eq r hr _ fun p => by rw [Finset.mem_filter]
  refine ⟨fun r hr p hp => ?_, fun r hr => ?_, fun r hr => ?_⟩
  · obtain ⟨h1, h2⟩ := h.parent_reg r hr p hp
    refine ⟨h1, h2, ?_⟩
    rw [hsz r hr, hsz p h1]
    refine Finset.card_lt_card ?_
    rw [Finset.ssubset_iff_of_subset]
    · obtain ⟨x, hx, hxl⟩ := h.reg_lab p h1
      refine ⟨x, Finset.mem_filter.2 ⟨hx, hlab p h1 x hx hxl⟩, fun hm => ?_⟩
      have hu := (Finset.mem_filter.1 hm).2
      unfold RegionTree.Under at hu
      rw [hxl] at hu
      have hle : ∀ a b, T.isReg a → ReflTransGen (fun a b => T.parent a = some b) a b → T.gray a ≤ T.gray b := by
        intro a b ha hab
        have : T.isReg b ∧ T.gray a ≤ T.gray b := by
          induction hab with
          | refl => exact ⟨ha, le_refl _⟩
          | tail _ hbc ih =>
            have := h.parent_reg _ ih.1 _ hbc
            exact ⟨this.1, by omega⟩
        exact this.2
      have := hle p r h1 hu
      omega
    · intro x hx
      rw [Finset.mem_filter] at hx ⊢
      exact ⟨hx.1, hx.2.tail hp⟩
  · obtain ⟨p, hp, e⟩ := h.reg_lab r hr
    rw [← e, h.lab_gray p hp]; exact hg p hp
  · obtain ⟨p, hp, e⟩ := h.reg_lab r hr
    rw [hsz r hr, Finset.card_pos]
    exact ⟨p, Finset.mem_filter.2 ⟨hp, hlab r hr p hp e⟩⟩

end Verif.Spec

namespace Verif.Recog

open Relation (ReflTransGen TransGen)
open Verif.Spec
open Verif.Connect (Forest Str RealPar forestTree)

variable {α ι : Type}

/-- The facts used by the proofs, from a region tree. -/
def treeOf (T : RegionTree α ι) (isReg : ι → Prop) (m : Nat) : Tree ι where
  isReg := isReg
  live := T.isReg
  gr := T.gray
  sz := T.size
  up := T.parent
  m := m

/-- The limits of a configuration. -/
def limits (cfg : Cfg) : Limits where
  delta := cfg.delta
  minPoint := cfg.minPoint
  maxPoint := cfg.maxPoint
  stable := cfg.stable
  nms := cfg.nms
  rnd := cfg.r32

variable {T : RegionTree α ι} {isReg : ι → Prop} {m : Nat} {cfg : Cfg}

theorem treeOf_ok (h : T.Ok) (hreg : ∀ r, T.isReg r → isReg r) : (treeOf T isReg m).Ok :=
  ⟨hreg, fun r hr p hp => (h.parent r hr p hp).1, fun r hr p hp => (h.parent r hr p hp).2.1, h.gray_lt, h.size_pos,
    fun r hr p hp => (h.parent r hr p hp).2.2⟩

theorem toForest_ofForest (F : Forest ι) (v : ι → ℚ) : toForest (ofForest F v) = F := by
  funext r
  have e : (toForest (ofForest F v) r).merged = (F r).merged := by
    show decide ((if (F r).merged then Flag.merged else Flag.unknown) = Flag.merged) = _
    cases (F r).merged <;> rfl
  generalize hx : toForest (ofForest F v) r = x at e
  have e1 : x.gray = (F r).gray := by rw [← hx]; rfl
  have e2 : x.parent = (F r).parent := by rw [← hx]; rfl
  have e3 : x.size = (F r).size := by rw [← hx]; rfl
  cases x; cases hF : F r
  simp only [hF] at e e1 e2 e3
  subst e e1 e2 e3; rfl

/-- What `build_tree` leaves behind shows the tree that later stages read. -/
theorem shows_forest {lab : α → ι} {F : Forest ι} {fuel : Nat} (hS : Str isReg (fun r => (F r).gray) F m)
    (hf : m ≤ fuel) (v : ι → ℚ) : Shows (treeOf (forestTree fuel isReg lab F) isReg m) (ofForest F v) := by
  have hto : toForest (ofForest F v) = F := toForest_ofForest F v
  refine ⟨fun r => rfl, fun r => rfl, fun r hr => ?_, by rw [hto]; exact hS, fun r hr => ?_⟩
  · show (if (F r).merged then Flag.merged else Flag.unknown) = Flag.merged ↔ ¬ (isReg r ∧ (F r).merged = false)
    have hr' : isReg r := hr
    cases (F r).merged <;> simp [hr']
  · rw [hto]
    obtain ⟨sp, h1, h2⟩ := hS.chase_parent hf hr.1
    show RealPar F r ((Connect.chase F fuel (F r).parent).getD none)
    rw [h1]; exact h2

theorem wid_iff {lim : Int} {r s : ι} : Wid (treeOf T isReg m) lim r s ↔ Widest T lim r s :=
  ⟨fun h => ⟨h.anc, h.within, h.last⟩, fun h => ⟨h.anc, h.within, h.last⟩⟩

theorem stability_unique (h : T.Ok) {L : Limits} {r : ι} (hr : T.isReg r) {v v' : Option ℚ} (h1 : Stability T L r v)
    (h2 : Stability T L r v') : v = v' := by
  have hT := treeOf_ok (T := T) (isReg := T.isReg) (m := 0) h (fun _ => id)
  obtain ⟨s, hs, h1⟩ := h1
  obtain ⟨s', hs', h2⟩ := h2
  have e := Wid.unique hT hr (wid_iff.2 hs) (wid_iff.2 hs')
  subst e
  rcases h1 with ⟨a, rfl⟩ | ⟨a, rfl⟩ <;> rcases h2 with ⟨b, rfl⟩ | ⟨b, rfl⟩
  · rfl
  · exfalso; rcases a with a | a
    · rw [b.1] at a; simp at a
    · exact b.2 a
  · exfalso; rcases b with b | b
    · rw [a.1] at b; simp at b
    · exact a.2 b
  · rfl

theorem vval_stability (h : T.Ok) (hreg : ∀ r, T.isReg r → isReg r) (h32 : Rounding cfg.r32) {r : ι} (hr : T.isReg r) :
    ∃ v, Stability T (limits cfg) r v ∧ Holds v (vval (treeOf T isReg m) cfg r) := by
  have hT := treeOf_ok (m := m) h hreg
  have hw := topOf_wid (n := 256) (thr := ((treeOf T isReg m).gr r : Int) + cfg.delta) hT hr (by omega)
  have hwid := wid_iff.1 hw
  have hsz := (anc_live hT hr hw.anc).2.2.1
  unfold vval
  simp only
  generalize hs : topOf (treeOf T isReg m) (((treeOf T isReg m).gr r : Int) + cfg.delta) 256 r = s at hsz ⊢ hwid
  by_cases hc : ((treeOf T isReg m).up s).isSome ∨ ((treeOf T isReg m).gr s : Int) = ((treeOf T isReg m).gr r : Int) + cfg.delta
  · rw [if_pos hc]
    refine ⟨some _, ⟨s, hwid, .inl ⟨hc, rfl⟩⟩, .inr ⟨rfl, ?_⟩⟩
    exact ratio32_nonneg h32 hsz
  · rw [if_neg hc]
    rw [not_or] at hc
    refine ⟨none, ⟨s, hwid, .inr ⟨⟨Option.not_isSome_iff_eq_none.1 hc.1, hc.2⟩, rfl⟩⟩, .inl ⟨rfl, rfl⟩⟩

theorem stability_some (h : T.Ok) (hreg : ∀ r, T.isReg r → isReg r) (h32 : Rounding cfg.r32) {r : ι} (hr : T.isReg r)
    {v : ℚ} : Stability T (limits cfg) r (some v) ↔
      0 ≤ vval (treeOf T isReg m) cfg r ∧ v = vval (treeOf T isReg m) cfg r := by
  obtain ⟨u, hu, hh⟩ := vval_stability (m := m) h hreg h32 hr
  constructor
  · intro hv
    have := stability_unique h hr hu hv
    subst this
    rcases hh with ⟨e, _⟩ | ⟨e, e'⟩
    · simp at e
    · exact ⟨e', Option.some.inj e⟩
  · rintro ⟨h1, rfl⟩
    rcases hh with ⟨_, e⟩ | ⟨e, _⟩
    · rw [e] at h1; norm_num at h1
    · rw [← e]; exact hu

theorem lessStable_iff (h : T.Ok) (hreg : ∀ r, T.isReg r → isReg r) (h32 : Rounding cfg.r32) {r q : ι} (hr : T.isReg r)
    (hq : T.isReg q) : LessStable T (limits cfg) r q ↔
      0 ≤ vval (treeOf T isReg m) cfg r ∧ 0 ≤ vval (treeOf T isReg m) cfg q ∧
        cfg.nms < cfg.r32 (vval (treeOf T isReg m) cfg r - vval (treeOf T isReg m) cfg q) := by
  unfold LessStable
  constructor
  · rintro ⟨v, w, h1, h2, h3⟩
    rw [stability_some (m := m) h hreg h32 hr] at h1
    rw [stability_some (m := m) h hreg h32 hq] at h2
    rw [h1.2, h2.2] at h3
    exact ⟨h1.1, h2.1, h3⟩
  · rintro ⟨h1, h2, h3⟩
    exact ⟨_, _, (stability_some h hreg h32 hr).2 ⟨h1, rfl⟩, (stability_some h hreg h32 hq).2 ⟨h2, rfl⟩, h3⟩

theorem suppressed_iff (h : T.Ok) (hreg : ∀ r, T.isReg r → isReg r) (h32 : Rounding cfg.r32) {r : ι} (hr : T.isReg r) :
    (0 ≤ cfg.nms ∧ Suppressed T (limits cfg) r) ↔ ∃ c, upBad (treeOf T isReg m) cfg c r := by
  constructor
  · rintro ⟨h0, ⟨c, hc, h1, h2, h3⟩ | ⟨p, h1, h2, h3⟩⟩
    · rw [lessStable_iff (m := m) h hreg h32 hr hc] at h3
      exact ⟨c, hc, r, h1, h0, h2, h3.2.1, h3.1, .inl ⟨h3.2.2, rfl⟩⟩
    · rw [lessStable_iff (m := m) h hreg h32 hr (h.parent r hr p h1).1] at h3
      refine ⟨r, hr, p, h1, h0, h2, h3.1, h3.2.1, .inr ⟨?_, rfl⟩⟩
      rw [← h32.neg, neg_sub]; exact h3.2.2
  · rintro ⟨c, hc, p, h1, h0, h2, h3, h4, h5⟩
    have hp := (h.parent c hc p h1).1
    refine ⟨h0, ?_⟩
    rcases h5 with ⟨h5, rfl⟩ | ⟨h5, rfl⟩
    · exact .inl ⟨c, hc, h1, h2, (lessStable_iff (m := m) h hreg h32 hr hc).2 ⟨h4, h3, h5⟩⟩
    · refine .inr ⟨p, h1, h2, (lessStable_iff (m := m) h hreg h32 hr hp).2 ⟨h3, h4, ?_⟩⟩
      rw [← h32.neg, neg_sub] at h5; exact h5

/-- The regions left after selection are the ones of the specification. -/
theorem selected_iff (h : T.Ok) (hreg : ∀ r, T.isReg r → isReg r) (h32 : Rounding cfg.r32) (hst : -1 ≤ cfg.stable) {r : ι} :
    (T.isReg r ∧ ¬ finalBad (treeOf T isReg m) cfg true r) ↔ Selected T (limits cfg) r := by
  unfold finalBad
  constructor
  · rintro ⟨hr, hb⟩
    rw [not_or, not_not] at hb
    obtain ⟨⟨b1, b2, b3, b4⟩, b5⟩ := hb
    refine ⟨hr, fun v hv => ?_, b2, b3, b4, fun h0 hs => b5 ⟨rfl, (suppressed_iff h hreg h32 hr).1 ⟨h0, hs⟩⟩⟩
    rw [stability_some (m := m) h hreg h32 hr] at hv
    rw [hv.2]; exact b1 rfl
  · intro hs
    refine ⟨hs.reg, ?_⟩
    rw [not_or, not_not]
    refine ⟨⟨fun _ => ?_, hs.min, hs.max, hs.parent⟩, fun hh => ?_⟩
    · obtain ⟨u, hu, hh⟩ := vval_stability (m := m) h hreg h32 hs.reg
      rcases hh with ⟨_, e⟩ | ⟨rfl, e⟩
      · rw [e]; exact hst
      · exact hs.stable _ hu
    · have := (suppressed_iff (m := m) h hreg h32 hs.reg).2 hh.2
      exact hs.nms this.1 this.2

end Verif.Recog
