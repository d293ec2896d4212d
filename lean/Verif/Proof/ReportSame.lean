import Verif.Spec.Report
import Verif.Spec.Same

/-!
# The report depends on the tree only
-/

namespace Verif.Spec

open Relation (ReflTransGen)

variable {α ι ι' : Type} {px : Finset α} {T : RegionTree α ι} {T' : RegionTree α ι'} {f : ι → ι'} {C : Criteria}

/-- Parents exist. -/
def RegionTree.Closed (T : RegionTree α ι) : Prop := ∀ r, T.isReg r → ∀ p, T.parent r = some p → T.isReg p

theorem around_reg (hC : T.Closed) {r s : ι} (hr : T.isReg r) (h : Around T r s) : T.isReg s := by
  induction h with
  | refl => exact hr
  | tail _ h ih => exact hC _ ih _ h

theorem SameTree.parent_mp (hS : SameTree px T T' f) {r p : ι} (hr : T.isReg r) (h : T.parent r = some p) : T'.parent (f r) = some (f p) := by
  rw [hS.parent r hr, h]; rfl

theorem SameTree.parent_mpr (hS : SameTree px T T' f) (hC : T.Closed) {r : ι} {p' : ι'} (hr : T.isReg r) (h : T'.parent (f r) = some p') :
    ∃ p, T.isReg p ∧ f p = p' ∧ T.parent r = some p := by
  rw [hS.parent r hr] at h
  obtain ⟨p, h1, h2⟩ := Option.map_eq_some_iff.1 h
  exact ⟨p, hC r hr p h1, h2, h1⟩

theorem SameTree.parent_iff' (hS : SameTree px T T' f) (hC : T.Closed) {r p : ι} (hr : T.isReg r) (hp : T.isReg p) :
    T'.parent (f r) = some (f p) ↔ T.parent r = some p := by
  refine ⟨fun h => ?_, hS.parent_mp hr⟩
  obtain ⟨q, h1, h2, h3⟩ := hS.parent_mpr hC hr h
  rw [h3, hS.inj q p h1 hp h2]

theorem SameTree.around_mp (hS : SameTree px T T' f) (hC : T.Closed) {r s : ι} (hr : T.isReg r) (h : Around T r s) : Around T' (f r) (f s) := by
  induction h with
  | refl => exact .refl
  | tail h1 h2 ih => exact ih.tail (hS.parent_mp (around_reg hC hr h1) h2)

theorem SameTree.around_mpr (hS : SameTree px T T' f) (hC : T.Closed) {r : ι} {s' : ι'} (hr : T.isReg r) (h : Around T' (f r) s') :
    ∃ s, T.isReg s ∧ f s = s' ∧ Around T r s := by
  induction h with
  | refl => exact ⟨r, hr, rfl, .refl⟩
  | tail _ h2 ih =>
    obtain ⟨s, h3, h4, h5⟩ := ih
    subst h4
    obtain ⟨p, k1, k2, k3⟩ := hS.parent_mpr hC h3 h2
    exact ⟨p, k1, k2, h5.tail k3⟩

theorem SameTree.around_iff (hS : SameTree px T T' f) (hC : T.Closed) {r s : ι} (hr : T.isReg r) (hs : T.isReg s) :
    Around T' (f r) (f s) ↔ Around T r s := by
  refine ⟨fun h => ?_, hS.around_mp hC hr⟩
  obtain ⟨q, h1, h2, h3⟩ := hS.around_mpr hC hr h
  rw [← hS.inj q s h1 hs h2]; exact h3

theorem SameTree.widest_iff (hS : SameTree px T T' f) (hC : T.Closed) {r s : ι} {lim : Int} (hr : T.isReg r) (hs : T.isReg s) :
    Widest T' lim (f r) (f s) ↔ Widest T lim r s := by
  constructor
  · intro h
    refine ⟨(hS.around_iff hC hr hs).1 h.anc, ?_, fun p hp => ?_⟩
    · exact h.within.imp (hS.inj s r hs hr) fun h => by rwa [hS.gray s hs] at h
    · have := h.last _ (hS.parent_mp hs hp)
      rwa [hS.gray p (hC s hs p hp)] at this
  · intro h
    refine ⟨hS.around_mp hC hr h.anc, ?_, fun p' hp' => ?_⟩
    · exact h.within.imp (congrArg f) fun h => by rwa [hS.gray s hs]
    · obtain ⟨p, h1, h2, h3⟩ := hS.parent_mpr hC hs hp'
      rw [← h2, hS.gray p h1]
      exact h.last p h3

theorem SameTree.variation_iff (hS : SameTree px T T' f) (hC : T.Closed) {r : ι} (hr : T.isReg r) {v : ℚ} :
    Variation T' C (f r) v ↔ Variation T C r v := by
  refine and_congr (imp_congr_right fun _ => ?_) Iff.rfl
  constructor
  · rintro ⟨s', h1, h2⟩
    obtain ⟨s, k1, k2, k3⟩ := hS.around_mpr hC hr h1.anc
    subst k2
    rw [hS.gray r hr] at h1
    rw [hS.size s k1, hS.size r hr] at h2
    exact ⟨s, (hS.widest_iff hC hr k1).1 h1, h2⟩
  · rintro ⟨s, h1, h2⟩
    have hs := around_reg hC hr h1.anc
    refine ⟨f s, by rw [hS.gray r hr]; exact (hS.widest_iff hC hr hs).2 h1, ?_⟩
    rw [hS.size s hs, hS.size r hr]; exact h2

theorem SameTree.beats_iff (hS : SameTree px T T' f) (hC : T.Closed) {q r : ι} (hq : T.isReg q) (hr : T.isReg r) :
    Beats T' C (f q) (f r) ↔ Beats T C q r := by
  unfold Beats
  simp only [hS.variation_iff hC hq, hS.variation_iff hC hr]

theorem SameTree.beaten_iff (hS : SameTree px T T' f) (hC : T.Closed) {r : ι} (hr : T.isReg r) : Beaten T' C (f r) ↔ Beaten T C r := by
  constructor
  · rintro (⟨c', h1, h2, h3, h4⟩ | ⟨p', h2, h3, h4⟩)
    · obtain ⟨c, k1, k2⟩ := hS.surj c' h1
      subst k2
      rw [hS.gray r hr, hS.gray c k1] at h3
      exact .inl ⟨c, k1, (hS.parent_iff' hC k1 hr).1 h2, h3, (hS.beats_iff hC k1 hr).1 h4⟩
    · obtain ⟨p, k1, k2, k3⟩ := hS.parent_mpr hC hr h2
      subst k2
      rw [hS.gray r hr, hS.gray p k1] at h3
      exact .inr ⟨p, k3, h3, (hS.beats_iff hC k1 hr).1 h4⟩
  · rintro (⟨c, h1, h2, h3, h4⟩ | ⟨p, h2, h3, h4⟩)
    · exact .inl ⟨f c, hS.reg c h1, hS.parent_mp h1 h2, by rw [hS.gray r hr, hS.gray c h1]; exact h3, (hS.beats_iff hC h1 hr).2 h4⟩
    · have hp := hC r hr p h2
      exact .inr ⟨f p, hS.parent_mp hr h2, by rw [hS.gray r hr, hS.gray p hp]; exact h3, (hS.beats_iff hC hp hr).2 h4⟩

theorem SameTree.fits_iff (hS : SameTree px T T' f) (hC : T.Closed) {r : ι} (hr : T.isReg r) : Fits T' C (f r) ↔ Fits T C r := by
  constructor
  · intro h
    refine ⟨hr, fun hn hb => h.nms hn ((hS.beaten_iff hC hr).2 hb), fun v hv => h.stable v ((hS.variation_iff hC hr).2 hv), ?_, ?_⟩
    · have := h.lo; rwa [hS.size r hr] at this
    · have := h.hi; rwa [hS.size r hr] at this
  · intro h
    refine ⟨hS.reg r hr, fun hn hb => h.nms hn ((hS.beaten_iff hC hr).1 hb), fun v hv => h.stable v ((hS.variation_iff hC hr).1 hv), ?_, ?_⟩
    · rw [hS.size r hr]; exact h.lo
    · rw [hS.size r hr]; exact h.hi

theorem SameTree.nearest_iff (hS : SameTree px T T' f) (hC : T.Closed) {K' : ι' → Prop} {r q : ι} (hr : T.isReg r) (hq : T.isReg q) :
    Nearest T' K' (f r) (f q) ↔ Nearest T (fun r => T.isReg r ∧ K' (f r)) r q := by
  have hnone : T'.parent (f q) = none ↔ T.parent q = none := by rw [hS.parent q hq, Option.map_eq_none_iff]
  constructor
  · intro h
    refine ⟨?_, h.found.imp (fun h => ⟨hq, h⟩) hnone.1, fun p a h1 h2 h3 h4 h5 => ?_⟩
    · obtain ⟨p', h1, h2⟩ := h.around
      obtain ⟨p, k1, k2, k3⟩ := hS.parent_mpr hC hr h1
      subst k2
      exact ⟨p, k3, (hS.around_iff hC k1 hq).1 h2⟩
    · have hp := hC r hr p h1
      exact h.first (f p) (f a) (hS.parent_mp hr h1) (hS.around_mp hC hp h2) (hS.around_mp hC h5.1 h3) (fun e => h4 (hS.inj a q h5.1 hq e)) h5.2
  · intro h
    refine ⟨?_, h.found.imp (fun h => h.2) hnone.2, fun p' a' h1 h2 h3 h4 h5 => ?_⟩
    · obtain ⟨p, h1, h2⟩ := h.around
      exact ⟨f p, hS.parent_mp hr h1, hS.around_mp hC (hC r hr p h1) h2⟩
    · obtain ⟨p, k1, k2, k3⟩ := hS.parent_mpr hC hr h1
      subst k2
      obtain ⟨a, l1, l2, l3⟩ := hS.around_mpr hC k1 h2
      subst l2
      exact h.first p a k3 l3 ((hS.around_iff hC l1 hq).1 h3) (fun e => h4 (congrArg f e)) ⟨l1, h5⟩

/-- The report of a tree, seen in the same tree. -/
theorem SameTree.isReport (hS : SameTree px T T' f) (hC : T.Closed) {K' : ι' → Prop} (h : IsReport T' C K') :
    IsReport T C (fun r => T.isReg r ∧ K' (f r)) := by
  intro r
  have hsim : ∀ {q}, T.isReg r → T.isReg q → (TooSimilar T' C (f r) (f q) ↔ TooSimilar T C r q) := by
    intro q hr hq
    unfold TooSimilar
    rw [hS.size r hr, hS.size q hq]
  have hreg : ∀ {K : ι → Prop} {q}, T.isReg r → Nearest T K r q → T.isReg q := by
    intro K q hr hq
    obtain ⟨p, h1, h2⟩ := hq.around
    exact around_reg hC (hC r hr p h1) h2
  constructor
  · rintro ⟨hr, hk⟩
    obtain ⟨h1, h2⟩ := (h (f r)).1 hk
    refine ⟨(hS.fits_iff hC hr).1 h1, fun a1 a2 q hq ht => ?_⟩
    have hqr := hreg hr hq
    exact h2 a1 a2 (f q) ((hS.nearest_iff hC hr hqr).2 hq) ((hsim hr hqr).2 ht)
  · rintro ⟨h1, h2⟩
    have hr := h1.reg
    refine ⟨hr, (h (f r)).2 ⟨(hS.fits_iff hC hr).2 h1, fun a1 a2 q' hq' ht => ?_⟩⟩
    obtain ⟨p', k1, k2⟩ := hq'.around
    obtain ⟨p, l1, l2, l3⟩ := hS.parent_mpr hC hr k1
    subst l2
    obtain ⟨q, j1, j2, -⟩ := hS.around_mpr hC l1 k2
    subst j2
    exact h2 a1 a2 q ((hS.nearest_iff hC hr j1).1 hq') ((hsim hr j1).1 ht)

/-- Only one set of regions satisfies the specification. -/
theorem IsReport.unique (hC : T.Closed) (hup : ∀ r, T.isReg r → ∀ p, T.parent r = some p → T.gray r < T.gray p) {B : Nat}
    (hB : ∀ r, T.isReg r → T.gray r < B) {K K' : ι → Prop} (h : IsReport T C K) (h' : IsReport T C K') : ∀ r, K r ↔ K' r := by
  have hmono : ∀ {a b}, T.isReg a → Around T a b → T.gray a ≤ T.gray b := by
    intro a b ha hab
    induction hab with
    | refl => exact le_refl _
    | tail h1 h2 ih => exact le_trans ih (Nat.le_of_lt (hup _ (around_reg hC ha h1) _ h2))
  have hcongr : ∀ {L L' : ι → Prop} {r q}, T.isReg r → (∀ j, T.isReg j → T.gray r < T.gray j → (L j ↔ L' j)) → Nearest T L r q → Nearest T L' r q := by
    intro L L' r q hr hL hN
    have hin : ∀ p a, T.parent r = some p → Around T p a → T.isReg a ∧ T.gray r < T.gray a := by
      intro p a hp ha
      have hpr := hC r hr p hp
      exact ⟨around_reg hC hpr ha, lt_of_lt_of_le (hup r hr p hp) (hmono hpr ha)⟩
    obtain ⟨p, hp, ha⟩ := hN.around
    refine ⟨hN.around, hN.found.imp (hL q (hin p q hp ha).1 (hin p q hp ha).2).1 id, ?_⟩
    intro p' a hp' ha' haq hne hk
    exact hN.first p' a hp' ha' haq hne ((hL a (hin p' a hp' ha').1 (hin p' a hp' ha').2).2 hk)
  have key : ∀ n r, T.isReg r → B - T.gray r ≤ n → (K r ↔ K' r) := by
    intro n
    induction n with
    | zero => intro r hr hn; have := hB r hr; omega
    | succ n ih =>
      intro r hr hn
      have hj : ∀ j, T.isReg j → T.gray r < T.gray j → (K j ↔ K' j) := fun j h1 h2 => ih j h1 (by have := hB j h1; omega)
      rw [h r, h' r]
      refine and_congr_right fun _ => ?_
      constructor
      · intro h1 a1 a2 q hq
        exact h1 a1 a2 q (hcongr hr (fun j h2 h3 => (hj j h2 h3).symm) hq)
      · intro h1 a1 a2 q hq
        exact h1 a1 a2 q (hcongr hr hj hq)
  intro r
  exact ⟨fun hk => (key _ r ((h r).1 hk).1.reg (le_refl _)).1 hk, fun hk => (key _ r ((h' r).1 hk).1.reg (le_refl _)).2 hk⟩

end Verif.Spec
