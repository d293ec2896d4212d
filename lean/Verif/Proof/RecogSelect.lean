import Verif.Proof.Recog

/-!
# Recognition: selection with one thread and with 32 threads
-/

namespace Verif.Recog

open Function (update)
open Verif.Connect (Forest Str Res RealPar)

variable {ι : Type} [DecidableEq ι]

/-! ### Folds and counting -/

/-- Invariant rule for loops over a list without repetitions. -/
theorem foldlM_inv {σ : Type} {f : σ → ι → Option σ} {P : List ι → σ → Prop} {order : List ι}
    (hnd : order.Nodup) {s0 : σ} (h0 : P [] s0)
    (hs : ∀ l s x, P l s → x ∈ order → x ∉ l → (∀ y ∈ l, y ∈ order) → ∃ s', f s x = some s' ∧ P (l ++ [x]) s') :
    ∃ s, order.foldlM f s0 = some s ∧ P order s := by
  have key : ∀ (rest l : List ι) (s : σ), P l s → (l ++ rest).Nodup → (∀ y ∈ l ++ rest, y ∈ order) →
      ∃ s', rest.foldlM f s = some s' ∧ P (l ++ rest) s' := by
    intro rest
    induction rest with
    | nil => intro l s h _ _; exact ⟨s, rfl, by simpa using h⟩
    | cons x xs ih =>
      intro l s h hn hm
      have hx : x ∉ l := by
        intro hx
        rw [List.nodup_append] at hn
        exact hn.2.2 x hx x (by simp) rfl
      obtain ⟨s1, e1, h1⟩ := hs l s x h (hm x (by simp)) hx (fun y hy => hm y (by simp [hy]))
      have e : l ++ x :: xs = (l ++ [x]) ++ xs := by simp
      rw [e] at hn hm
      obtain ⟨s2, e2, h2⟩ := ih (l ++ [x]) s1 h1 hn hm
      refine ⟨s2, ?_, by rw [e]; exact h2⟩
      rw [List.foldlM_cons, e1]; exact e2
  obtain ⟨s, e, h⟩ := key order [] s0 h0 (by simpa using hnd) (by simp)
  exact ⟨s, e, by simpa using h⟩

theorem countP_drop {l : List ι} (hnd : l.Nodup) {f f' : ι → Bool} {r : ι} (hr : r ∈ l)
    (hne : ∀ x, x ≠ r → f' x = f x) (h1 : f r = true) (h2 : f' r = false) :
    l.countP f = l.countP f' + 1 := by
  induction l with
  | nil => simp at hr
  | cons a t ih =>
    rw [List.nodup_cons] at hnd
    rcases List.mem_cons.1 hr with e | e
    · subst e
      have : t.countP f = t.countP f' := by
        refine List.countP_congr fun x hx => ?_
        rw [hne x (by rintro rfl; exact hnd.1 hx)]
      rw [List.countP_cons_of_pos h1, List.countP_cons_of_neg (by simp [h2]), this]
    · have hne' : a ≠ r := by rintro rfl; exact hnd.1 e
      have := ih hnd.2 e
      rw [List.countP_cons, List.countP_cons, hne a hne', this]; omega

theorem countP_same {l : List ι} {f f' : ι → Bool} {r : ι} (hr : r ∉ l)
    (hne : ∀ x, x ≠ r → f' x = f x) : l.countP f' = l.countP f :=
  List.countP_congr fun x hx => by rw [hne x (by rintro rfl; exact hr hx)]

/-- Still a candidate, of gray level `g`. -/
def unk (R : RForest ι) (g : Nat) (r : ι) : Bool := decide ((R r).flag = .unknown) && decide ((R r).gray = g)

/-- Still a candidate. -/
def cand (R : RForest ι) (r : ι) : Bool := decide ((R r).flag = .unknown)

/-! ### After the stability values -/

/-- The verdict on a region by itself; `uv` says whether the stability value is used. -/
def pass1 (T : Tree ι) (cfg : Cfg) (uv : Bool) (r : ι) : Prop :=
  (uv = true → vval T cfg r ≤ cfg.stable) ∧ cfg.minPoint ≤ (T.sz r : Int) ∧ (T.sz r : Int) ≤ cfg.maxPoint ∧
    T.up r ≠ none

omit [DecidableEq ι] in
theorem badSize_iff {T : Tree ι} {cfg : Cfg} {x : RNode ι} {r : ι} (h1 : x.size = T.sz r)
    (h2 : x.parent = none ↔ T.up r = none) : badSize cfg x = true ↔
      ¬ (cfg.minPoint ≤ (T.sz r : Int) ∧ (T.sz r : Int) ≤ cfg.maxPoint ∧ T.up r ≠ none) := by
  unfold badSize
  simp only [Bool.or_eq_true, decide_eq_true_eq, Option.isNone_iff_eq_none, h1, h2]
  by_cases e : T.up r = none
  · simp [e]
  · simp only [e, or_false, ne_eq, not_false_eq_true, and_true]; omega

omit [DecidableEq ι] in
/-- Null parents are null even before links are shortened. -/
theorem Shows.par_none {T : Tree ι} {R : RForest ι} (h : Shows T R) {r : ι} (hr : T.live r) :
    (R r).parent = none ↔ T.up r = none := by
  have h1 := h.par r hr
  constructor
  · intro e
    cases hu : T.up r with
    | none => rfl
    | some x =>
      rw [hu] at h1
      cases h1 with
      | some y _ k h3 _ =>
        have : (R r).parent = some y := h3
        rw [e] at this; simp at this
  · intro e
    rw [e] at h1
    cases h1 with
    | none h => exact h

/-- The regions of `dom` have been valued and judged; `bad` are those found unfit; the candidates in `l`
are counted. -/
structure NSt (T : Tree ι) (cfg : Cfg) (uv : Bool) (dom : ι → Prop) (l : List ι) (bad : ι → Prop) (s : RSt ι) :
    Prop where
  shows_ : Shows T s.R
  par : ∀ r, dom r → (uv = true ∨ ¬ bad r) → (s.R r).parent = T.up r
  var : uv = true → ∀ r, dom r → (s.R r).var = vval T cfg r
  flag : ∀ r, dom r → ((s.R r).flag = .unknown ∧ ¬ bad r) ∨ ((s.R r).flag = .invalid ∧ bad r)
  lev : ∀ g, s.lev g = (l.countP (unk s.R g) : Int)
  total : s.total = (l.countP (cand s.R) : Int)

variable {T : Tree ι} {cfg : Cfg} {uv : Bool} {dom : ι → Prop} {l : List ι} {bad : ι → Prop} {s : RSt ι}

theorem setFlag_self (R : RForest ι) (r : ι) (f : Flag) : (setFlag R r f r).flag = f := by simp [setFlag]
theorem setFlag_flag_ne (R : RForest ι) {r x : ι} (f : Flag) (h : x ≠ r) : (setFlag R r f x).flag = (R x).flag := by
  simp [setFlag, Function.update_of_ne h]
theorem setFlag_rest (R : RForest ι) (r x : ι) (f : Flag) : (setFlag R r f x).gray = (R x).gray ∧
    (setFlag R r f x).parent = (R x).parent ∧ (setFlag R r f x).var = (R x).var ∧
    (setFlag R r f x).counted = (R x).counted := by
  by_cases h : x = r
  · subst h; simp [setFlag]
  · simp [setFlag, Function.update_of_ne h]

theorem setCalc_rest (R : RForest ι) (r x : ι) : (setCalc R r x).gray = (R x).gray ∧
    (setCalc R r x).parent = (R x).parent ∧ (setCalc R r x).var = (R x).var ∧
    (setCalc R r x).flag = (R x).flag := by
  by_cases h : x = r
  · subst h; simp [setCalc]
  · simp [setCalc, Function.update_of_ne h]

/-- Marking a counted candidate. -/
theorem NSt.mark (hT : T.Ok) (h : NSt T cfg uv dom l bad s) (hnd : l.Nodup) {r : ι} (hr : T.live r) (hl : r ∈ l)
    (hf : (s.R r).flag = .unknown) :
    NSt T cfg uv dom l (fun x => bad x ∨ x = r)
      ({ s with R := setFlag s.R r .invalid }.count (s.R r).gray (-1)) := by
  refine ⟨h.shows_.setFlag hT hr (by decide), ?_, ?_, ?_, ?_, ?_⟩
  · intro x hx hu
    exact ((setFlag_rest s.R r x .invalid).2.1).trans (h.par x hx (hu.imp_right fun hu hb => hu (.inl hb)))
  · intro e x hx
    exact ((setFlag_rest s.R r x .invalid).2.2.1).trans (h.var e x hx)
  · intro x hx
    show ((setFlag s.R r .invalid x).flag = _ ∧ _) ∨ ((setFlag s.R r .invalid x).flag = _ ∧ _)
    by_cases e : x = r
    · subst e; right; exact ⟨setFlag_self _ _ _, .inr rfl⟩
    · rw [setFlag_flag_ne _ _ e]
      simpa [e] using h.flag x hx
  · intro g
    show update s.lev (s.R r).gray (s.lev (s.R r).gray + -1) g = (l.countP (unk (setFlag s.R r .invalid) g) : Int)
    have hoff : ∀ g x, x ≠ r → unk (setFlag s.R r .invalid) g x = unk s.R g x := by
      intro g x hx; simp [unk, setFlag_flag_ne _ _ hx, (setFlag_rest s.R r x .invalid).1]
    have hrf : unk (setFlag s.R r .invalid) g r = false := by simp [unk, setFlag_self]
    by_cases e : g = (s.R r).gray
    · subst e
      rw [Function.update_self, h.lev,
        countP_drop (f := unk s.R (s.R r).gray) (f' := unk (setFlag s.R r .invalid) (s.R r).gray) hnd hl
          (hoff _) (by simp [unk, hf]) hrf]
      push_cast; omega
    · rw [Function.update_of_ne e, h.lev]
      congr 1
      refine List.countP_congr fun x _ => ?_
      by_cases hx : x = r
      · subst hx; rw [hrf]; simp [unk, Ne.symm e]
      · rw [hoff g x hx]
  · show s.total + -1 = (l.countP (cand (setFlag s.R r .invalid)) : Int)
    rw [h.total, countP_drop (f := cand s.R) (f' := cand (setFlag s.R r .invalid)) hnd hl
      (fun x hx => by simp [cand, setFlag_flag_ne _ _ hx]) (by simp [cand, hf]) (by simp [cand, setFlag_self])]
    push_cast; omega

/-- Marking a region that is not counted. -/
theorem NSt.mark_out (hT : T.Ok) (h : NSt T cfg uv dom l bad s) {r : ι} (hr : T.live r) (hl : r ∉ l) :
    NSt T cfg uv dom l (fun x => bad x ∨ x = r) { s with R := setFlag s.R r .invalid } := by
  refine ⟨h.shows_.setFlag hT hr (by decide), ?_, ?_, ?_, ?_, ?_⟩
  · intro x hx hu
    exact ((setFlag_rest s.R r x .invalid).2.1).trans (h.par x hx (hu.imp_right fun hu hb => hu (.inl hb)))
  · intro e x hx
    exact ((setFlag_rest s.R r x .invalid).2.2.1).trans (h.var e x hx)
  · intro x hx
    show ((setFlag s.R r .invalid x).flag = _ ∧ _) ∨ ((setFlag s.R r .invalid x).flag = _ ∧ _)
    by_cases e : x = r
    · subst e; right; exact ⟨setFlag_self _ _ _, .inr rfl⟩
    · rw [setFlag_flag_ne _ _ e]
      simpa [e] using h.flag x hx
  · intro g
    show s.lev g = (l.countP (unk (setFlag s.R r .invalid) g) : Int)
    rw [h.lev, countP_same (f := unk (setFlag s.R r .invalid) g) (f' := unk s.R g) hl fun x hx => by
      simp [unk, setFlag_flag_ne _ _ hx, (setFlag_rest s.R r x .invalid).1]]
  · show s.total = (l.countP (cand (setFlag s.R r .invalid)) : Int)
    rw [h.total, countP_same (f := cand (setFlag s.R r .invalid)) (f' := cand s.R) hl fun x hx => by
      simp [cand, setFlag_flag_ne _ _ hx]]

theorem NSt.congr (h : NSt T cfg uv dom l bad s) {bad' : ι → Prop} (hb : ∀ x, dom x → (bad' x ↔ bad x)) :
    NSt T cfg uv dom l bad' s :=
  ⟨h.shows_, fun x hx hu => h.par x hx (hu.imp_right fun hu hbx => hu ((hb x hx).2 hbx)), h.var,
    fun x hx => by rw [hb x hx]; exact h.flag x hx, h.lev, h.total⟩

/-- State of the first loop with one thread after the regions of `l`. -/
structure First (T : Tree ι) (cfg : Cfg) (uv : Bool) (l : List ι) (s : RSt ι) : Prop where
  nst : NSt T cfg uv (fun r => T.live r ∧ r ∈ l) l (fun r => ¬ pass1 T cfg uv r) s
  fresh : ∀ r, T.live r → r ∉ l → (s.R r).flag = .unknown
  counted : ∀ r, T.live r → (s.R r).counted = false

/-- Adding a judged region to the list. -/
theorem NSt.snoc (h : NSt T cfg uv (fun r => T.live r ∧ r ∈ l) l bad s) {R' : RForest ι} {x : ι} (hx : x ∉ l)
    (hsh : Shows T R')
    (hpar : ∀ r, (R' r).parent = (s.R r).parent ∨ (R' r).parent = T.up r)
    (hvar : ∀ r, r ≠ x → (R' r).var = (s.R r).var) (hflag : ∀ r, r ≠ x → (R' r).flag = (s.R r).flag)
    (h1 : T.live x → (uv = true ∨ ¬ bad x) → (R' x).parent = T.up x) (h2 : T.live x → uv = true → (R' x).var = vval T cfg x)
    (h3 : T.live x → ((R' x).flag = .unknown ∧ ¬ bad x) ∨ ((R' x).flag = .invalid ∧ bad x)) {d : Int}
    (hd : d = if (R' x).flag = .unknown then 1 else 0) :
    NSt T cfg uv (fun r => T.live r ∧ r ∈ l ++ [x]) (l ++ [x]) bad
      ({ s with R := R' }.count (R' x).gray d) := by
  have hgr : ∀ r, (R' r).gray = (s.R r).gray := fun r => by rw [hsh.gray, h.shows_.gray]
  have hin : ∀ r, r ∈ l ++ [x] → r = x ∨ (r ≠ x ∧ r ∈ l) := by
    intro r hr
    by_cases e : r = x
    · exact .inl e
    · right; refine ⟨e, ?_⟩; simpa [e] using hr
  refine ⟨hsh, ?_, ?_, ?_, ?_, ?_⟩
  · rintro r ⟨hr, hm⟩ hu
    rcases hin r hm with e | ⟨e, hm⟩
    · subst e; exact h1 hr hu
    · rcases hpar r with e' | e'
      · exact e'.trans (h.par r ⟨hr, hm⟩ hu)
      · exact e'
  · rintro e r ⟨hr, hm⟩
    rcases hin r hm with e' | ⟨e', hm⟩
    · subst e'; exact h2 hr e
    · exact (hvar r e').trans (h.var e r ⟨hr, hm⟩)
  · rintro r ⟨hr, hm⟩
    show ((R' r).flag = _ ∧ _) ∨ ((R' r).flag = _ ∧ _)
    rcases hin r hm with e' | ⟨e', hm⟩
    · subst e'; exact h3 hr
    · rw [hflag r e']; exact h.flag r ⟨hr, hm⟩
  · intro g
    show update s.lev (R' x).gray (s.lev (R' x).gray + d) g = ((l ++ [x]).countP (unk R' g) : Int)
    have e1 : l.countP (unk R' g) = l.countP (unk s.R g) :=
      countP_same hx fun r hr => by simp [unk, hflag r hr, hgr]
    rw [List.countP_append, e1, List.countP_singleton]
    by_cases e : g = (R' x).gray
    · subst e
      rw [Function.update_self, h.lev, hd]
      by_cases hf : (R' x).flag = .unknown <;> simp [unk, hf]
    · rw [Function.update_of_ne e, h.lev]
      simp [unk, Ne.symm e]
  · show s.total + d = ((l ++ [x]).countP (cand R') : Int)
    have e1 : l.countP (cand R') = l.countP (cand s.R) :=
      countP_same hx fun r hr => by simp [cand, hflag r hr]
    rw [List.countP_append, e1, List.countP_singleton, h.total, hd]
    by_cases hf : (R' x).flag = .unknown <;> simp [cand, hf]

theorem count_zero (s : RSt ι) (g : Nat) : s.count g 0 = s := by
  unfold RSt.count; simp

/-- A region that is not live is passed over. -/
theorem First.skip (h : First T cfg uv l s) {x : ι} (hx : x ∉ l) (hl : ¬ T.live x)
    (hf : (s.R x).flag ≠ .unknown) : First T cfg uv (l ++ [x]) s := by
  have := h.nst.snoc (R' := s.R) hx h.nst.shows_ (fun _ => .inl rfl) (fun _ _ => rfl) (fun _ _ => rfl)
    (fun h => absurd h hl) (fun h => absurd h hl) (fun h => absurd h hl) (d := 0) (by simp [hf])
  refine ⟨by rw [count_zero] at this; exact this, fun r hr hm => h.fresh r hr (fun h => hm (by simp [h])), h.counted⟩

theorem serialVisit_first (hT : T.Ok) {fuel : Nat} (hf : T.m ≤ fuel) (h : First T cfg (decide (0 < cfg.delta)) l s)
    {x : ι} (hreg : T.isReg x) (hx : x ∉ l) :
    ∃ s', serialVisit cfg fuel s x = some s' ∧ First T cfg (decide (0 < cfg.delta)) (l ++ [x]) s' := by
  by_cases hl : T.live x
  · have hun := h.fresh x hl hx
    unfold serialVisit
    rw [if_pos hun]
    -- the valuation
    have hval : ∃ R1, (if 0 < cfg.delta then calcVar cfg (fun _ => true) fuel s.R x else some s.R) = some R1 ∧
        Shows T R1 ∧ (∀ r, (R1 r).flag = (s.R r).flag) ∧ (∀ r, (R1 r).counted = (s.R r).counted) ∧
        (∀ r, r ≠ x → (R1 r).var = (s.R r).var) ∧
        (∀ r, (R1 r).parent = (s.R r).parent ∨ (R1 r).parent = T.up r) ∧
        (0 < cfg.delta → (R1 x).var = vval T cfg x ∧ (R1 x).parent = T.up x) := by
      by_cases hd : 0 < cfg.delta
      · obtain ⟨R1, e1, hv⟩ := calcVar_spec hT (cfg := cfg) (own := fun _ => true) hf h.nst.shows_ hl
        exact ⟨R1, by rw [if_pos hd, e1], hv.shows_, hv.flag, hv.counted, hv.var_ne, hv.par, fun _ => ⟨hv.var, hv.par_self⟩⟩
      · exact ⟨s.R, by rw [if_neg hd], h.nst.shows_, fun _ => rfl, fun _ => rfl, fun _ _ => rfl, fun _ => .inl rfl,
          fun h => absurd h hd⟩
    obtain ⟨R1, e1, hsh1, hfl1, hct1, hva1, hpa1, hd1⟩ := hval
    rw [e1]
    simp only
    have hbad := badSize_iff (T := T) (cfg := cfg) (x := R1 x) (r := x) (hsh1.size x) (hsh1.par_none hl)
    -- the case of a region found unfit
    have hrej : ¬ pass1 T cfg (decide (0 < cfg.delta)) x →
        First T cfg (decide (0 < cfg.delta)) (l ++ [x]) { s with R := setFlag R1 x .invalid } := by
      intro hb
      have hne := h.nst.snoc (R' := setFlag R1 x .invalid) hx (hsh1.setFlag hT hl (by decide))
        (fun r => by rw [(setFlag_rest R1 x r .invalid).2.1]; exact hpa1 r)
        (fun r hr => by rw [(setFlag_rest R1 x r .invalid).2.2.1]; exact hva1 r hr)
        (fun r hr => by rw [setFlag_flag_ne _ _ hr]; exact hfl1 r)
        (fun _ hu => by
          rw [(setFlag_rest R1 x x .invalid).2.1]
          rcases hu with hu | hu
          · exact (hd1 (by simpa using hu)).2
          · exact absurd hb hu)
        (fun _ hu => by rw [(setFlag_rest R1 x x .invalid).2.2.1]; exact (hd1 (by simpa using hu)).1)
        (fun _ => .inr ⟨setFlag_self _ _ _, hb⟩) (d := 0) (by simp [setFlag_self])
      rw [count_zero] at hne
      refine ⟨hne, ?_, ?_⟩
      · intro r hr hm
        have hrx : r ≠ x := fun e => hm (by simp [e])
        show (setFlag R1 x .invalid r).flag = _
        rw [setFlag_flag_ne _ _ hrx, hfl1]; exact h.fresh r hr (fun h => hm (by simp [h]))
      · intro r hr
        show (setFlag R1 x .invalid r).counted = _
        rw [(setFlag_rest R1 x r .invalid).2.2.2, hct1]; exact h.counted r hr
    by_cases hs : 0 < cfg.delta ∧ cfg.stable < (R1 x).var
    · rw [if_pos hs]
      refine ⟨_, rfl, hrej ?_⟩
      intro hp
      have := hp.1 (by simpa using hs.1)
      rw [(hd1 hs.1).1] at hs
      exact absurd hs.2 (not_lt.2 this)
    · rw [if_neg hs]
      by_cases hb : badSize cfg (R1 x) = true
      · rw [if_pos hb]
        exact ⟨_, rfl, hrej fun hp => hbad.1 hb hp.2⟩
      · rw [if_neg hb]
        have hgood : pass1 T cfg (decide (0 < cfg.delta)) x := by
          refine ⟨fun hu => ?_, not_not.1 (fun hn => hb (hbad.2 hn))⟩
          have hu' : 0 < cfg.delta := by simpa using hu
          rw [← (hd1 hu').1]
          exact not_lt.1 (fun hlt => hs ⟨hu', hlt⟩)
        have hshort : ∃ R2, (if cfg.delta ≤ 0 then (realParent R1 fuel x).map (setParent R1 x) else some R1) = some R2 ∧
            Shows T R2 ∧ Shorter T R1 R2 ∧ (R2 x).parent = T.up x := by
          by_cases hd : cfg.delta ≤ 0
          · obtain ⟨k1, k2⟩ := shows_setParent hsh1 hT hl
            refine ⟨setParent R1 x (T.up x), ?_, k1, k2, by simp [setParent]⟩
            rw [if_pos hd, hsh1.realParent hT hf hl]; rfl
          · exact ⟨R1, by rw [if_neg hd], hsh1, .refl, (hd1 (by omega)).2⟩
        obtain ⟨R2, e2, hsh2, hS2, hp2⟩ := hshort
        rw [e2]
        have hflx : (R2 x).flag = .unknown := by rw [hS2.flag, hfl1]; exact hun
        have hne := h.nst.snoc (R' := R2) hx hsh2
          (fun r => by
            rcases hS2.par r with e | e
            · rw [e]; exact hpa1 r
            · exact .inr e)
          (fun r hr => by rw [hS2.var]; exact hva1 r hr)
          (fun r _ => by rw [hS2.flag]; exact hfl1 r)
          (fun _ _ => hp2)
          (fun _ hu => by rw [hS2.var]; exact (hd1 (by simpa using hu)).1)
          (fun _ => .inl ⟨hflx, not_not.2 hgood⟩) (d := 1) (by simp [hflx])
        refine ⟨_, rfl, hne, ?_, ?_⟩
        · intro r hr hm
          show (R2 r).flag = _
          rw [hS2.flag, hfl1]; exact h.fresh r hr (fun h => hm (by simp [h]))
        · intro r hr
          show (R2 r).counted = _
          rw [hS2.counted, hct1]; exact h.counted r hr
  · have hm := (h.nst.shows_.merged x hreg).2 hl
    refine ⟨s, ?_, h.skip hx hl (by simp [hm])⟩
    unfold serialVisit
    rw [if_neg (by simp [hm])]

end Verif.Recog
