import Verif.Model.OpenCv
import Mathlib.Logic.Relation

/-!
# The OpenCV detector: histories

The histories form chains; the loops of `calculateVariation` stay inside a chain.
-/

namespace Verif.OpenCv

open Function (update)
open Relation (ReflTransGen)
open Verif.Recog (Cfg)

/-- `b` is a later history of the chain of `a`. -/
def CPath (H : Nat → Hist) : Nat → Nat → Prop := ReflTransGen (fun a b => (H a).child = b ∧ a < b)

/-- The first `n` histories exist. -/
structure HistI (H : Nat → Hist) (n : Nat) : Prop where
  size : ∀ k < n, 0 < (H k).size
  path : ∀ k < n, CPath H (H k).shortCut k

theorem CPath.le {H : Nat → Hist} {a b : Nat} (h : CPath H a b) : a ≤ b := by
  induction h with
  | refl => exact le_refl _
  | tail _ h ih => omega

theorem CPath.congr {H H' : Nat → Hist} (h : ∀ k, (H' k).child = (H k).child) {a b : Nat} (hp : CPath H a b) :
    CPath H' a b := by
  unfold CPath at *
  refine ReflTransGen.mono ?_ _ _ hp
  intro x y hxy
  rw [h]; exact hxy

/-- Paths stay when the end of a chain is continued. -/
theorem CPath.extend {H H' : Nat → Hist} {i : Nat} (h : ∀ k, k ≠ i → (H' k).child = (H k).child) (hi : (H i).child ≤ i)
    {a b : Nat} (hp : CPath H a b) : CPath H' a b := by
  unfold CPath at *
  refine ReflTransGen.mono ?_ _ _ hp
  rintro x y ⟨h1, h2⟩
  have : x ≠ i := by rintro rfl; omega
  exact ⟨by rw [h x this]; exact h1, h2⟩

/-- Changing the child of a history that is not reached from before. -/
theorem CPath.fresh {H H' : Nat → Hist} {n : Nat} (h : ∀ k, k < n → (H' k).child = (H k).child) {a b : Nat} (hb : b ≤ n)
    (hp : CPath H a b) : CPath H' a b := by
  induction hp with
  | refl => exact .refl
  | @tail x y hx hxy ih =>
    have hlt : x < n := by omega
    exact .tail (ih (by omega)) ⟨by rw [h x hlt]; exact hxy.1, hxy.2⟩

theorem backLoop_some {H : Nat → Hist} {n : Nat} (h : HistI H n) (delta val : Int) {i : Nat} :
    ∀ (f s : Nat), s < f → s < n → CPath H s i → ∃ s', backLoop H delta val f s = some s' ∧ CPath H s' i ∧ s' ≤ s ∧
      (s' = (H s').shortCut ∨ ((H s').gray : Int) + delta ≤ val) ∧ CPath H s' s
  | 0, s, h1, _, _ => by omega
  | f + 1, s, h1, h2, h3 => by
    rw [backLoop]
    by_cases hc : s ≠ (H s).shortCut ∧ val < ((H s).gray : Int) + delta
    · rw [if_pos hc]
      have hp := h.path s h2
      have hle := hp.le
      obtain ⟨s', e1, e2, e3, e4, e5⟩ := backLoop_some h delta val f (H s).shortCut (by omega) (by omega)
        (ReflTransGen.trans hp h3)
      exact ⟨s', e1, e2, by omega, e4, ReflTransGen.trans e5 hp⟩
    · rw [if_neg hc]
      refine ⟨s, rfl, h3, le_refl _, ?_, .refl⟩
      rw [not_and_or] at hc
      rcases hc with hc | hc
      · exact .inl (not_not.1 hc)
      · exact .inr (by omega)

theorem foreLoop_some {H : Nat → Hist} (delta val : Int) {i : Nat} (hi : (H i).child = i) :
    ∀ (f s : Nat), i - s < f → CPath H s i → ∃ s', foreLoop H delta val f s (H s).child = some s' ∧ CPath H s' i ∧
      CPath H s s' ∧ (s' ≠ s → ((H s').gray : Int) + delta ≤ val ∧ s' ≠ i) ∧
      ((H s').child = i ∨ val < ((H (H s').child).gray : Int) + delta)
  | 0, s, h1, _ => by omega
  | f + 1, s, h1, h2 => by
    rw [foreLoop]
    rcases ReflTransGen.cases_head h2 with e | ⟨b, ⟨hb1, hb2⟩, hb3⟩
    · subst e
      rw [hi, if_neg (by rw [hi]; simp)]
      exact ⟨s, rfl, .refl, .refl, fun h => absurd rfl h, .inl hi⟩
    · rw [hb1]
      by_cases hc : b ≠ (H b).child ∧ ((H b).gray : Int) + delta ≤ val
      · rw [if_pos hc]
        have hbi : CPath H b i := hb3
        have hle := hbi.le
        obtain ⟨s', e1, e2, e3, e4, e5⟩ := foreLoop_some delta val hi f b (by omega) hb3
        refine ⟨s', e1, e2, .head ⟨hb1, hb2⟩ e3, fun _ => ?_, e5⟩
        by_cases e : s' = b
        · subst e
          exact ⟨hc.2, fun e => hc.1 (by rw [e, hi])⟩
        · exact e4 e
      · rw [if_neg hc]
        refine ⟨s, rfl, h2, .refl, fun h => absurd rfl h, ?_⟩
        rw [hb1]
        rw [not_and_or] at hc
        rcases hc with hc | hc
        · left
          have hc := not_not.1 hc
          rcases ReflTransGen.cases_head hb3 with e | ⟨c, ⟨h3, h4⟩, -⟩
          · exact e
          · omega
        · exact .inr (by omega)

theorem calcVar_some {cfg : Cfg} {H : Nat → Hist} {n i : Nat} (h : HistI H n) (hin : i < n) (hi : (H i).child = i) (c : Comp) :
    ∃ s, CPath H s i ∧ calcVar cfg (n + 1) c i H =
      some (cfg.r64 (((c.size : ℚ) - (H s).size) / (H s).size), update H i { H i with shortCut := s }) := by
  have hp := h.path i hin
  have hle := hp.le
  obtain ⟨s1, e1, e2, e3, -⟩ := backLoop_some h cfg.delta c.gray (n + 1) (H i).shortCut (by omega) (by omega) hp
  have := e2.le
  obtain ⟨s2, f1, f2, -⟩ := foreLoop_some cfg.delta c.gray hi (n + 1) s1 (by omega) e2
  have := f2.le
  refine ⟨s2, f2, ?_⟩
  unfold calcVar
  rw [e1]
  simp only [Option.bind_some]
  rw [f1]
  simp only [Option.bind_some]
  have := h.size s2 (by omega)
  rw [if_neg (by omega)]

theorem HistI.shortCut {H : Nat → Hist} {n i s : Nat} (h : HistI H n) (hs : CPath H s i) :
    HistI (update H i { H i with shortCut := s }) n := by
  have hc : ∀ k, (update H i { H i with shortCut := s } k).child = (H k).child := by
    intro k; by_cases e : k = i
    · subst e; simp
    · rw [Function.update_of_ne e]
  refine ⟨fun k hk => ?_, fun k hk => ?_⟩
  · by_cases e : k = i
    · subst e; simpa using h.size k hk
    · rw [Function.update_of_ne e]; exact h.size k hk
  · refine CPath.congr hc ?_
    by_cases e : k = i
    · subst e; simpa using hs
    · rw [Function.update_of_ne e]; exact h.path k hk

theorem HistI.stable {H : Nat → Hist} {n i s : Nat} (h : HistI H n) :
    HistI (update H i { H i with stable := s }) n := by
  have hc : ∀ k, (update H i { H i with stable := s } k).child = (H k).child := by
    intro k; by_cases e : k = i
    · subst e; simp
    · rw [Function.update_of_ne e]
  refine ⟨fun k hk => ?_, fun k hk => ?_⟩
  · by_cases e : k = i
    · subst e; simpa using h.size k hk
    · rw [Function.update_of_ne e]; exact h.size k hk
  · refine CPath.congr hc ?_
    by_cases e : k = i
    · subst e; simpa using h.path k hk
    · rw [Function.update_of_ne e]; exact h.path k hk

/-- Two tables of histories differ in `mShortCut` and `mStable` only. -/
def SameH (H H' : Nat → Hist) : Prop :=
  ∀ k, (H' k).child = (H k).child ∧ (H' k).gray = (H k).gray ∧ (H' k).size = (H k).size

theorem SameH.refl (H : Nat → Hist) : SameH H H := fun _ => ⟨rfl, rfl, rfl⟩

/-- Two components differ in `mLastVar` and `mCurrentVar` only. -/
structure SameC (c c' : Comp) : Prop where
  head : c'.head = c.head
  tail : c'.tail = c.tail
  hist : c'.hist = c.hist
  gray : c'.gray = c.gray
  size : c'.size = c.size

theorem isStable_some {cfg : Cfg} {H : Nat → Hist} {n : Nat} (h : HistI H n) (c : Comp)
    (hc : ∀ i, c.hist = some i → i < n ∧ (H i).child = i) :
    ∃ b c' H', isStable cfg (n + 1) c H = some (b, c', H') ∧ HistI H' n ∧ SameC c c' ∧ SameH H H' ∧
      (b = true → ∃ i, c.hist = some i ∧ cfg.minPoint ≤ ((H i).size : Int) ∧ ((H i).size : Int) ≤ cfg.maxPoint) := by
  unfold isStable
  cases hh : c.hist with
  | none => exact ⟨false, c, H, rfl, h, ⟨rfl, rfl, rfl, rfl, rfl⟩, SameH.refl H, by simp⟩
  | some i =>
    obtain ⟨h1, h2⟩ := hc i hh
    have h3 := h.size i h1
    simp only
    by_cases hr : ((H i).size : Int) < cfg.minPoint ∨ cfg.maxPoint < ((H i).size : Int)
    · rw [if_pos hr]; exact ⟨false, c, H, rfl, h, ⟨rfl, rfl, rfl, rfl, rfl⟩, SameH.refl H, by simp⟩
    · rw [if_neg hr, if_neg (by omega)]
      obtain ⟨s, s1, s2⟩ := calcVar_some (cfg := cfg) h h1 h2 c
      rw [s2]
      simp only [Option.bind_some]
      refine ⟨_, _, _, rfl, ?_, ⟨rfl, rfl, hh.symm, rfl, rfl⟩, ?_, fun _ => ⟨i, rfl, by omega, by omega⟩⟩
      · split_ifs
        · exact (h.shortCut s1).stable
        · exact h.shortCut s1
      · intro k
        split_ifs
        all_goals by_cases e : k = i
        all_goals first | (subst e; simp) | (simp [Function.update_of_ne e])

/-- A new history at the end of the chain of `c`, with any `mStable`. -/
theorem HistI.new {H : Nat → Hist} {n : Nat} (h : HistI H n) (c : Comp) (hc : ∀ i, c.hist = some i → i < n ∧ (H i).child = i)
    (hs : 0 < c.size) (st : Nat) :
    HistI (update (setChild H c n) n { mkHist H n c with stable := st }) (n + 1) := by
  cases hh : c.hist with
  | none =>
    simp only [setChild, mkHist, hh]
    have hc' : ∀ k, k < n → (update H n ⟨n, n, st, c.gray, c.size⟩ k).child = (H k).child := by
      intro k hk; rw [Function.update_of_ne (by omega)]
    refine ⟨fun k hk => ?_, fun k hk => ?_⟩
    · by_cases e : k = n
      · subst e; simpa using hs
      · rw [Function.update_of_ne e]; exact h.size k (by omega)
    · by_cases e : k = n
      · subst e; simp only [Function.update_self]; exact .refl
      · rw [Function.update_of_ne e]
        exact CPath.fresh hc' (by omega) (h.path k (by omega))
  | some i =>
    obtain ⟨h1, h2⟩ := hc i hh
    simp only [setChild, mkHist, hh]
    have hne : i ≠ n := by omega
    generalize hH' : update (update H i { H i with child := n }) n ⟨(H i).shortCut, n, st, c.gray, c.size⟩ = H'
    have e0 : ∀ k, k ≠ i → k ≠ n → H' k = H k := by
      intro k e1 e2; rw [← hH', Function.update_of_ne e2, Function.update_of_ne e1]
    have ei : H' i = { H i with child := n } := by rw [← hH', Function.update_of_ne hne, Function.update_self]
    have en : H' n = ⟨(H i).shortCut, n, st, c.gray, c.size⟩ := by rw [← hH', Function.update_self]
    have key : ∀ a b, b < n → CPath H a b → CPath H' a b := by
      intro a b hb hp
      induction hp with
      | refl => exact .refl
      | @tail x y _ hxy ih =>
        refine .tail (ih (by omega)) ⟨?_, hxy.2⟩
        have : x ≠ i := by rintro rfl; omega
        rw [e0 x this (by omega)]; exact hxy.1
    refine ⟨fun k hk => ?_, fun k hk => ?_⟩
    · by_cases e : k = n
      · subst e; rw [en]; exact hs
      · by_cases e' : k = i
        · subst e'; rw [ei]; exact h.size k h1
        · rw [e0 k e' e]; exact h.size k (by omega)
    · by_cases e : k = n
      · subst e; rw [en]
        exact .tail (key _ _ h1 (h.path i h1)) ⟨by rw [ei], h1⟩
      · have hk' : k < n := by omega
        by_cases e' : k = i
        · subst e'; rw [ei]; exact key _ _ h1 (h.path k h1)
        · rw [e0 k e' e]; exact key _ _ hk' (h.path k hk')

end Verif.OpenCv
