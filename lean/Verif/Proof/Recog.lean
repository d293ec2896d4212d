import Mathlib.Tactic.Linarith
import Mathlib.Data.List.Count
import Verif.Model.Recognize
import Verif.Spec.Stable
import Verif.Proof.ConnectTree

/-!
# Recognition: the forest seen through shortened links, and the stability value
-/

namespace Verif.Recog

open Function (update)
open Relation (ReflTransGen)
open Verif.Connect (Forest Str Res RealPar)

variable {ι : Type} [DecidableEq ι]

/-- The live tree, as fixed facts: `up` is the nearest live ancestor. -/
structure Tree (ι : Type) where
  isReg : ι → Prop
  live : ι → Prop
  gr : ι → Nat
  sz : ι → Nat
  up : ι → Option ι
  m : Nat

structure Tree.Ok (T : Tree ι) : Prop where
  reg : ∀ r, T.live r → T.isReg r
  up_live : ∀ r, T.live r → ∀ p, T.up r = some p → T.live p
  up_gray : ∀ r, T.live r → ∀ p, T.up r = some p → T.gr r < T.gr p
  gr_lt : ∀ r, T.live r → T.gr r < 256
  sz_pos : ∀ r, T.live r → 0 < T.sz r
  sz_lt : ∀ r, T.live r → ∀ p, T.up r = some p → T.sz r < T.sz p

/-- The regions in memory show the tree `T`. -/
structure Shows (T : Tree ι) (R : RForest ι) : Prop where
  gray : ∀ r, (R r).gray = T.gr r
  size : ∀ r, (R r).size = T.sz r
  merged : ∀ r, T.isReg r → ((R r).flag = .merged ↔ ¬ T.live r)
  str : Str T.isReg T.gr (toForest R) T.m
  par : ∀ r, T.live r → RealPar (toForest R) r (T.up r)

variable {T : Tree ι} {R : RForest ι}

omit [DecidableEq ι] in
theorem Shows.live (h : Shows T R) (hT : T.Ok) {r : ι} (hr : T.live r) : (toForest R r).merged = false := by
  have := (h.merged r (hT.reg r hr)).not.2 (not_not.2 hr)
  simpa [toForest] using this

omit [DecidableEq ι] in
theorem Shows.flag_ne (h : Shows T R) (hT : T.Ok) {r : ι} (hr : T.live r) : (R r).flag ≠ .merged :=
  (h.merged r (hT.reg r hr)).not.2 (not_not.2 hr)

omit [DecidableEq ι] in
theorem Shows.realParent (h : Shows T R) (hT : T.Ok) {fuel : Nat} (hf : T.m ≤ fuel) {r : ι} (hr : T.live r) :
    realParent R fuel r = some (T.up r) := by
  have h1 := h.par r hr
  unfold Recog.realParent
  cases h2 : T.up r with
  | none =>
    rw [h2] at h1
    cases h1 with
    | none h3 =>
      have : (R r).parent = none := h3
      rw [this]; simp [Connect.chase]
  | some x =>
    rw [h2] at h1
    cases h1 with
    | some y _ k h3 h4 =>
      have h5 : (R r).parent = some y := h3
      rw [h5]
      obtain ⟨k', hk', x', hx'⟩ := h.str.res y (h.str.par_reg r (hT.reg r hr) y h3)
      have e1 := Connect.chase_res h4 (le_max_left k k')
      have e2 := Connect.chase_res hx' (le_max_right k k')
      rw [e1] at e2
      have : x = x' := by simpa using e2
      subst this
      exact Connect.chase_res hx' (by omega)

/-- `R'` differs from `R` only in stored parents of live regions, which are now the real ones. -/
structure Shorter (T : Tree ι) (R R' : RForest ι) : Prop where
  flag : ∀ r, (R' r).flag = (R r).flag
  var : ∀ r, (R' r).var = (R r).var
  counted : ∀ r, (R' r).counted = (R r).counted
  par : ∀ r, (R' r).parent = (R r).parent ∨ (R' r).parent = T.up r

omit [DecidableEq ι] in
theorem Shorter.refl : Shorter T R R := ⟨fun _ => rfl, fun _ => rfl, fun _ => rfl, fun _ => .inl rfl⟩

omit [DecidableEq ι] in
theorem Shorter.trans {R' R'' : RForest ι} (h : Shorter T R R') (h' : Shorter T R' R'') : Shorter T R R'' :=
  ⟨fun r => (h'.flag r).trans (h.flag r), fun r => (h'.var r).trans (h.var r),
   fun r => (h'.counted r).trans (h.counted r), fun r => by
    rcases h'.par r with e | e
    · rw [e]; exact h.par r
    · exact .inr e⟩

theorem shows_setParent (h : Shows T R) (hT : T.Ok) {s : ι} (hs : T.live s) :
    Shows T (setParent R s (T.up s)) ∧ Shorter T R (setParent R s (T.up s)) := by
  have e : toForest (setParent R s (T.up s)) = Connect.setParent (toForest R) s (T.up s) := by
    funext r
    by_cases hr : r = s
    · subst hr; simp [toForest, setParent, Connect.setParent]
    · simp [toForest, setParent, Connect.setParent, Function.update_of_ne hr]
  have hc := Connect.compress h.str (hT.reg s hs) (h.live hT hs) (h.par s hs)
  have hfl : ∀ r, (setParent R s (T.up s) r).flag = (R r).flag := by
    intro r
    by_cases hr : r = s
    · subst hr; simp [setParent]
    · simp [setParent, Function.update_of_ne hr]
  refine ⟨⟨?_, ?_, ?_, ?_, ?_⟩, ⟨hfl, ?_, ?_, ?_⟩⟩
  · intro r
    by_cases hr : r = s
    · subst hr; simp [setParent, h.gray]
    · simp [setParent, Function.update_of_ne hr, h.gray]
  · intro r
    by_cases hr : r = s
    · subst hr; simp [setParent, h.size]
    · simp [setParent, Function.update_of_ne hr, h.size]
  · intro r hr; rw [hfl]; exact h.merged r hr
  · rw [e]; exact hc.str
  · intro r hr
    rw [e]
    by_cases hrs : r = s
    · subst hrs
      cases hu : T.up r with
      | none => exact .none (by rw [← hu]; exact hc.par)
      | some x =>
        refine .some x x 0 (by rw [← hu]; exact hc.par) ⟨?_, rfl⟩
        rw [← hu, hc.merged]; exact h.live hT (hT.up_live r hr x hu)
    · have hne : ∀ z, z ≠ s → (Connect.setParent (toForest R) s (T.up s) z).parent = (toForest R z).parent := by
        intro z hz; simp [Connect.setParent, Function.update_of_ne hz]
      have hmp : ∀ z, (toForest R z).merged = true →
          (Connect.setParent (toForest R) s (T.up s) z).parent = (toForest R z).parent := by
        intro z hz
        refine hne z ?_
        rintro rfl
        rw [h.live hT hs] at hz; simp at hz
      have h1 := h.par r hr
      generalize T.up r = o at h1 ⊢
      cases h1 with
      | none h2 => exact .none (by rw [hne r hrs]; exact h2)
      | some y x k h2 h3 =>
        exact .some y x k (by rw [hne r hrs]; exact h2) (Connect.res_congr hc.merged hmp h3)
  · intro r
    by_cases hr : r = s
    · subst hr; simp [setParent]
    · simp [setParent, Function.update_of_ne hr]
  · intro r
    by_cases hr : r = s
    · subst hr; simp [setParent]
    · simp [setParent, Function.update_of_ne hr]
  · intro r
    by_cases hr : r = s
    · subst hr; right; simp [setParent]
    · left; simp [setParent, Function.update_of_ne hr]

omit [DecidableEq ι] in
/-- Changes that keep links, sizes, levels and the merged mark keep the tree visible. -/
theorem Shows.congr {R' : RForest ι} (h : Shows T R) (h1 : ∀ r, (R' r).gray = (R r).gray)
    (h2 : ∀ r, (R' r).size = (R r).size) (h3 : ∀ r, ((R' r).flag = .merged ↔ (R r).flag = .merged))
    (h4 : ∀ r, (R' r).parent = (R r).parent) : Shows T R' := by
  have e : toForest R' = toForest R := by
    funext r
    simp only [toForest, h1, h2, h4]
    congr 1
    exact decide_eq_decide.2 (h3 r)
  exact ⟨fun r => by rw [h1]; exact h.gray r, fun r => by rw [h2]; exact h.size r,
    fun r hr => by rw [h3]; exact h.merged r hr, by rw [e]; exact h.str, by rw [e]; exact h.par⟩

theorem Shows.setVar (h : Shows T R) (s : ι) (v : ℚ) : Shows T (setVar R s v) := by
  refine h.congr ?_ ?_ ?_ ?_ <;> intro r <;>
  · by_cases hr : r = s
    · subst hr; simp [Recog.setVar]
    · simp [Recog.setVar, Function.update_of_ne hr]

theorem Shows.setCalc (h : Shows T R) (s : ι) : Shows T (setCalc R s) := by
  refine h.congr ?_ ?_ ?_ ?_ <;> intro r <;>
  · by_cases hr : r = s
    · subst hr; simp [Recog.setCalc]
    · simp [Recog.setCalc, Function.update_of_ne hr]

theorem Shows.setFlag (h : Shows T R) {s : ι} (hT : T.Ok) (hs : T.live s) {f : Flag} (hf : f ≠ .merged) :
    Shows T (setFlag R s f) := by
  have := h.flag_ne hT hs
  refine h.congr ?_ ?_ ?_ ?_ <;> intro r <;>
  · by_cases hr : r = s
    · subst hr; simp [Recog.setFlag, hf, this]
    · simp [Recog.setFlag, Function.update_of_ne hr]

/-! ### The stability value -/

/-- The last region reached when climbing from `s` over regions of level at most `thr`. -/
def topOf (T : Tree ι) (thr : Int) : Nat → ι → ι
  | 0, s => s
  | n + 1, s =>
    match T.up s with
    | none => s
    | some p => if (T.gr p : Int) ≤ thr then topOf T thr n p else s

/-- The stability value, `-1` if not available. -/
def vval (T : Tree ι) (cfg : Cfg) (r : ι) : ℚ :=
  let thr : Int := T.gr r + cfg.delta
  let s := topOf T thr 256 r
  if (T.up s).isSome ∨ (T.gr s : Int) = thr then ratio32 cfg (T.sz s) (T.sz r) else -1

theorem topOf_live (hT : T.Ok) {thr : Int} : ∀ {n : Nat} {s : ι}, T.live s → T.live (topOf T thr n s)
  | 0, s, h => h
  | n + 1, s, h => by
    unfold topOf
    cases hu : T.up s with
    | none => exact h
    | some p =>
      simp only
      split
      · exact topOf_live hT (hT.up_live s h p hu)
      · exact h

theorem climb_spec (hT : T.Ok) {own : ι → Bool} {fuel : Nat} (hf : T.m ≤ fuel) {thr : Int} :
    ∀ {n : Nat} {R : RForest ι} {s : ι}, Shows T R → T.live s → 256 ≤ T.gr s + n + 1 →
      ∃ R', climb own fuel thr n R s (T.up s) = some (R', topOf T thr n s, T.up (topOf T thr n s)) ∧
        Shows T R' ∧ Shorter T R R' := by
  intro n
  induction n with
  | zero =>
    intro R s hR hs hn
    cases hu : T.up s with
    | none => exact ⟨R, by simp [climb, topOf, hu], hR, .refl⟩
    | some p =>
      have := hT.up_gray s hs p hu
      have := hT.gr_lt p (hT.up_live s hs p hu)
      omega
  | succ n ih =>
    intro R s hR hs hn
    cases hu : T.up s with
    | none => exact ⟨R, by simp [climb, topOf, hu], hR, .refl⟩
    | some p =>
      have hp := hT.up_live s hs p hu
      have hg := hT.up_gray s hs p hu
      by_cases hle : (T.gr p : Int) ≤ thr
      · have h1 : ∃ R1, (if own p then setParent R p (T.up p) else R) = R1 ∧ Shows T R1 ∧ Shorter T R R1 := by
          cases own p with
          | true => exact ⟨_, rfl, shows_setParent hR hT hp⟩
          | false => exact ⟨R, rfl, hR, .refl⟩
        obtain ⟨R1, e1, hR1, hS1⟩ := h1
        obtain ⟨R2, e2, hR2, hS2⟩ := ih hR1 hp (by omega)
        refine ⟨R2, ?_, hR2, hS1.trans hS2⟩
        unfold climb
        rw [hR.gray, if_pos hle, hR.realParent hT hf hp]
        simp only [e1, e2, topOf, hu, hle, if_true]
      · refine ⟨R, ?_, hR, .refl⟩
        unfold climb
        rw [hR.gray, if_neg hle]
        simp only [topOf, hu, hle, if_false]

/-- What visiting `r` for its stability value does. -/
structure Valued (T : Tree ι) (cfg : Cfg) (R R' : RForest ι) (r : ι) : Prop where
  shows_ : Shows T R'
  flag : ∀ x, (R' x).flag = (R x).flag
  counted : ∀ x, (R' x).counted = (R x).counted
  var_ne : ∀ x, x ≠ r → (R' x).var = (R x).var
  var : (R' r).var = vval T cfg r
  par : ∀ x, (R' x).parent = (R x).parent ∨ (R' x).parent = T.up x
  par_self : (R' r).parent = T.up r

theorem calcVar_spec (hT : T.Ok) {cfg : Cfg} {own : ι → Bool} {fuel : Nat} (hf : T.m ≤ fuel) (hR : Shows T R)
    {r : ι} (hr : T.live r) : ∃ R', calcVar cfg own fuel R r = some R' ∧ Valued T cfg R R' r := by
  obtain ⟨h1, h2⟩ := shows_setParent hR hT hr
  obtain ⟨R2, e2, h3, h4⟩ := climb_spec hT (own := own) hf (thr := T.gr r + cfg.delta) (n := 256) h1 hr (by omega)
  have hps : (setParent R r (T.up r) r).parent = T.up r := by simp [setParent]
  refine ⟨setVar R2 r (vval T cfg r), ?_, ?_⟩
  · unfold calcVar
    simp only [hR.realParent hT hf hr, hR.gray, e2, h3.gray, h3.size]
    rfl
  · have hs : ∀ x, (setVar R2 r (vval T cfg r) x).flag = (R2 x).flag ∧
        (setVar R2 r (vval T cfg r) x).counted = (R2 x).counted ∧
        (setVar R2 r (vval T cfg r) x).parent = (R2 x).parent := by
      intro x
      by_cases hx : x = r
      · subst hx; simp [setVar]
      · simp [setVar, Function.update_of_ne hx]
    have h5 := h2.trans h4
    refine ⟨h3.setVar _ _, fun x => ?_, fun x => ?_, fun x hx => ?_, by simp [setVar], fun x => ?_, ?_⟩
    · rw [(hs x).1]; exact h5.flag x
    · rw [(hs x).2.1]; exact h5.counted x
    · simp only [setVar, Function.update_of_ne hx]; exact h5.var x
    · rw [(hs x).2.2]; exact h5.par x
    · rw [(hs r).2.2]
      rcases h4.par r with e | e
      · rw [e]; exact hps
      · exact e

end Verif.Recog
