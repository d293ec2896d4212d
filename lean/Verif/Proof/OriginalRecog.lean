import Verif.Model.OriginalRecog
import Verif.Proof.RecogV1
import Verif.Proof.RecogSpec

/-!
# Original detector: recognition
-/

namespace Verif.Original

open Function (update)
open Relation (TransGen ReflTransGen)
open Verif.Recog
open Verif.Linear (climbL)
open Verif.Spec (Rounding Grouping kept)

/-- The regions before recognition; `T` is the tree they show. -/
structure Raw (T : Recog.Tree Nat) (merged : Nat → Bool) (n : Nat) (R0 : RForest Nat) : Prop where
  live : ∀ r, T.live r ↔ r < n ∧ merged r = false
  gray : ∀ r, (R0 r).gray = T.gr r
  size : ∀ r, (R0 r).size = T.sz r
  up : ∀ r, T.live r → unmerged merged R0 n (R0 r).parent = some (T.up r)
  flag : ∀ r < n, (R0 r).flag = .unknown
  var : ∀ r < n, (R0 r).var = -1

variable {T : Recog.Tree Nat} {merged : Nat → Bool} {n : Nat} {R0 : RForest Nat} {cfg : Cfg}

/-! ### Merged regions are passed over -/

theorem unmerged_live (R : RForest Nat) (k : Nat) {p : Nat} (h : merged p = false) :
    unmerged merged R k (some p) = some (some p) := by
  unfold unmerged; simp [h]

theorem unmerged_congr {R R' : RForest Nat} (h : ∀ r, merged r = true → (R r).parent = (R' r).parent) :
    ∀ (k : Nat) (o : Option Nat), unmerged merged R k o = unmerged merged R' k o := by
  intro k
  induction k with
  | zero => intro o; cases o <;> simp [unmerged]
  | succ k ih =>
    intro o
    cases o with
    | none => simp [unmerged]
    | some p =>
      unfold unmerged
      by_cases hm : merged p = true
      · simp only [hm, if_true]; rw [h p hm]; exact ih _
      · simp [hm]

/-- Invalid regions. -/
def inval (R : RForest Nat) (r : Nat) : Bool := decide ((R r).flag = .invalid)

/-- State of the first loop after `k` regions. -/
structure P1 (T : Recog.Tree Nat) (merged : Nat → Bool) (n : Nat) (R0 : RForest Nat) (k : Nat) (s : RecSt) : Prop where
  gray : ∀ r, (s.R r).gray = T.gr r
  size : ∀ r, (s.R r).size = T.sz r
  var : ∀ r < n, (s.R r).var = -1
  par_m : ∀ r, merged r = true → (s.R r).parent = (R0 r).parent
  par : ∀ r, T.live r → (s.R r).parent = (R0 r).parent ∨ (s.R r).parent = T.up r
  done : ∀ r, T.live r → r < k → (s.R r).parent = T.up r
  flag : ∀ r < n, (s.R r).flag = if r < k ∧ merged r = true then .invalid else .unknown
  short : ∀ r < k, s.short r = r
  invalid : s.invalid = (List.range n).countP (inval s.R)

theorem P1.walk (h0 : Raw T merged n R0) (hT : T.Ok) {k : Nat} {s : RecSt} (h : P1 T merged n R0 k s) {r : Nat}
    (hr : T.live r) : unmerged merged s.R n (s.R r).parent = some (T.up r) := by
  rcases h.par r hr with e | e
  · rw [e, unmerged_congr (R' := R0) h.par_m]; exact h0.up r hr
  · rw [e]
    cases hu : T.up r with
    | none => simp [unmerged]
    | some p => exact unmerged_live _ _ ((h0.live p).1 (hT.up_live r hr p hu)).2

theorem setParent_rest (R : RForest Nat) (a x : Nat) (p : Option Nat) : (setParent R a p x).gray = (R x).gray ∧
    (setParent R a p x).size = (R x).size ∧ (setParent R a p x).var = (R x).var ∧
    (setParent R a p x).flag = (R x).flag := by
  by_cases e : x = a
  · subst e; simp [setParent]
  · simp [setParent, Function.update_of_ne e]

theorem setParent_self (R : RForest Nat) (a : Nat) (p : Option Nat) : (setParent R a p a).parent = p := by
  simp [setParent]

theorem setParent_ne (R : RForest Nat) {a x : Nat} (p : Option Nat) (h : x ≠ a) :
    (setParent R a p x).parent = (R x).parent := by
  simp [setParent, Function.update_of_ne h]

/-- Setting the parent of a live region to its real one. -/
theorem P1.setPar (h0 : Raw T merged n R0) {k : Nat} {s : RecSt} (h : P1 T merged n R0 k s) {a : Nat} (ha : T.live a) :
    P1 T merged n R0 k { s with R := setParent s.R a (T.up a) } := by
  have hr := setParent_rest s.R a
  have hinv : inval (setParent s.R a (T.up a)) = inval s.R := by
    funext r; unfold inval; rw [(hr r _).2.2.2]
  refine ⟨fun r => (hr r _).1.trans (h.gray r), fun r => (hr r _).2.1.trans (h.size r),
    fun r hn => (hr r _).2.2.1.trans (h.var r hn), ?_, ?_, ?_, fun r hn => (hr r _).2.2.2.trans (h.flag r hn), h.short,
    by dsimp only; rw [hinv]; exact h.invalid⟩
  · intro r hm
    dsimp only
    rw [setParent_ne]; · exact h.par_m r hm
    rintro rfl; rw [((h0.live r).1 ha).2] at hm; cases hm
  · intro r hl
    dsimp only
    by_cases e : r = a
    · subst e; right; exact setParent_self _ _ _
    · rw [setParent_ne _ _ e]; exact h.par r hl
  · intro r hl hk
    dsimp only
    by_cases e : r = a
    · subst e; exact setParent_self _ _ _
    · rw [setParent_ne _ _ e]; exact h.done r hl hk

theorem setFlag_size (R : RForest Nat) (r x : Nat) (f : Flag) : (setFlag R r f x).size = (R x).size := by
  by_cases h : x = r
  · subst h; simp [setFlag]
  · simp [setFlag, Function.update_of_ne h]

/-- One more invalid region. -/
theorem inval_count {R : RForest Nat} {r : Nat} (hr : r < n) (hf : (R r).flag ≠ .invalid) :
    (List.range n).countP (inval (setFlag R r .invalid)) = (List.range n).countP (inval R) + 1 :=
  countP_drop List.nodup_range (List.mem_range.2 hr)
    (fun x hx => by unfold inval; rw [setFlag_flag_ne _ _ hx]) (by unfold inval; rw [setFlag_self]; rfl)
    (by unfold inval; exact decide_eq_false hf)

theorem resolve_spec (h0 : Raw T merged n R0) (hT : T.Ok) {k : Nat} (hk : k < n) {s : RecSt} (h : P1 T merged n R0 k s) :
    ∃ s', resolve merged n s k = some s' ∧ P1 T merged n R0 (k + 1) s' := by
  -- a step that does not touch the regions of index `k` except the shortcut
  have hsh : ∀ r < k + 1, update s.short k k r = r := by
    intro r hr
    by_cases e : r = k
    · subst e; rw [Function.update_self]
    · rw [Function.update_of_ne e]; exact h.short r (by omega)
  by_cases hm : merged k = true
  · have hfk : (s.R k).flag = .unknown := by rw [h.flag k hk, if_neg (fun e => absurd e.1 (lt_irrefl k))]
    refine ⟨_, by unfold resolve; rw [if_pos hm], ?_⟩
    have hr := setFlag_rest s.R k
    refine ⟨fun r => (hr r _).1.trans (h.gray r), fun r => (setFlag_size s.R k r _).trans (h.size r),
      fun r hn => (hr r _).2.2.1.trans (h.var r hn), fun r hm => (hr r _).2.1.trans (h.par_m r hm), ?_, ?_, ?_, hsh, ?_⟩
    · intro r hl
      rcases h.par r hl with e | e
      · exact .inl ((hr r _).2.1.trans e)
      · exact .inr ((hr r _).2.1.trans e)
    · intro r hl hk'
      have : r ≠ k := by rintro rfl; rw [((h0.live r).1 hl).2] at hm; cases hm
      exact (hr r _).2.1.trans (h.done r hl (by omega))
    · intro r hn
      dsimp only
      by_cases e : r = k
      · subst e; rw [setFlag_self, if_pos ⟨by omega, hm⟩]
      · rw [setFlag_flag_ne _ _ e, h.flag r hn]
        by_cases hc : r < k ∧ merged r = true
        · rw [if_pos hc, if_pos ⟨by omega, hc.2⟩]
        · rw [if_neg hc, if_neg (fun hc' => hc ⟨by omega, hc'.2⟩)]
    · dsimp only
      rw [inval_count hk (by rw [hfk]; decide), h.invalid]
  · have hl : T.live k := (h0.live k).2 ⟨hk, by simpa using hm⟩
    have h1 : P1 T merged n R0 k { s with short := update s.short k k } :=
      ⟨h.gray, h.size, h.var, h.par_m, h.par, h.done, h.flag, fun r hr => hsh r (by omega), h.invalid⟩
    have h2 := h1.setPar h0 hl
    have hfin : ∀ {t : RecSt}, P1 T merged n R0 k t → (t.R k).parent = T.up k → t.short = update s.short k k →
        P1 T merged n R0 (k + 1) t := by
      intro t ht hp hs
      refine ⟨ht.gray, ht.size, ht.var, ht.par_m, ht.par, ?_, ?_, by rw [hs]; exact hsh, ht.invalid⟩
      · intro r hr hrk
        by_cases e : r = k
        · subst e; exact hp
        · exact ht.done r hr (by omega)
      · intro r hn
        rw [ht.flag r hn]
        by_cases hc : r < k ∧ merged r = true
        · rw [if_pos hc, if_pos ⟨by omega, hc.2⟩]
        · rw [if_neg hc, if_neg]
          rintro ⟨a, b⟩
          rcases Nat.lt_or_ge r k with h3 | h3
          · exact hc ⟨h3, b⟩
          · have : r = k := by omega
            subst this; exact hm b
    unfold resolve
    rw [if_neg hm]
    dsimp only
    rw [h.walk h0 hT hl]
    cases hu : T.up k with
    | none =>
      refine ⟨_, rfl, hfin (by rw [← hu]; exact h2) (by dsimp only; rw [setParent_self, hu]) rfl⟩
    | some p =>
      dsimp only
      have hp := hT.up_live k hl p hu
      have hne : k ≠ p := by rintro rfl; exact absurd (hT.up_gray k hl k hu) (lt_irrefl _)
      rw [hu] at h2
      have h3 := h2.walk h0 hT hp
      dsimp only at h3
      rw [h3]
      refine ⟨_, rfl, hfin (h2.setPar h0 hp) ?_ rfl⟩
      dsimp only
      rw [setParent_ne _ _ hne, setParent_self, hu]

theorem range_foldlM {σ : Type} {f : σ → Nat → Option σ} {P : Nat → σ → Prop} : ∀ (n : Nat) {s0 : σ}, P 0 s0 →
    (∀ k s, k < n → P k s → ∃ s', f s k = some s' ∧ P (k + 1) s') →
    ∃ s, (List.range n).foldlM f s0 = some s ∧ P n s := by
  intro n
  induction n with
  | zero => intro s0 h0 _; exact ⟨s0, rfl, h0⟩
  | succ n ih =>
    intro s0 h0 hs
    obtain ⟨s, e, h⟩ := ih h0 (fun k s hk => hs k s (by omega))
    obtain ⟨s', e', h'⟩ := hs n s (by omega) h
    refine ⟨s', ?_, h'⟩
    rw [List.range_succ, List.foldlM_append, e]
    show ([n].foldlM f s) = _
    rw [List.foldlM_cons, e']
    rfl

theorem loop1 (h0 : Raw T merged n R0) (hT : T.Ok) (sh : Nat → Nat) :
    ∃ s, (List.range n).foldlM (resolve merged n) ⟨R0, sh, 0⟩ = some s ∧ P1 T merged n R0 n s := by
  refine range_foldlM (P := P1 T merged n R0) n ⟨h0.gray, h0.size, h0.var, fun _ _ => rfl, fun _ _ => .inl rfl,
    fun r _ h => absurd h (Nat.not_lt_zero r), fun r hr => ?_, fun r h => absurd h (Nat.not_lt_zero r), ?_⟩
    (fun k s hk h => resolve_spec h0 hT hk h)
  · rw [if_neg (fun e => absurd e.1 (Nat.not_lt_zero r))]; exact h0.flag r hr
  · symm
    rw [List.countP_eq_zero]
    intro r hr
    simp [inval, h0.flag r (List.mem_range.1 hr)]

/-! ### Shortcuts -/

theorem topOf_fuel (hT : T.Ok) {thr : Int} : ∀ {k k' : Nat} {s : Nat}, T.live s → 256 ≤ T.gr s + k + 1 → 256 ≤ T.gr s + k' + 1 →
    topOf T thr k s = topOf T thr k' s := by
  intro k
  induction k with
  | zero =>
    intro k' s hs h1 h2
    have hno : T.up s = none := by
      cases hu : T.up s with
      | none => rfl
      | some p =>
        have := hT.up_gray s hs p hu
        have := hT.gr_lt p (hT.up_live s hs p hu)
        omega
    cases k' <;> simp [topOf, hno]
  | succ k ih =>
    intro k' s hs h1 h2
    cases k' with
    | zero =>
      have hno : T.up s = none := by
        cases hu : T.up s with
        | none => rfl
        | some p =>
          have := hT.up_gray s hs p hu
          have := hT.gr_lt p (hT.up_live s hs p hu)
          omega
      simp [topOf, hno]
    | succ k' =>
      unfold topOf
      cases hu : T.up s with
      | none => rfl
      | some p =>
        have := hT.up_gray s hs p hu
        simp only
        split
        · exact ih (hT.up_live s hs p hu) (by omega) (by omega)
        · rfl

/-- One step of the search. -/
theorem topOf_step (hT : T.Ok) {thr : Int} {s p : Nat} (hs : T.live s) (hu : T.up s = some p) (hp : (T.gr p : Int) ≤ thr) :
    topOf T thr 256 s = topOf T thr 256 p := by
  have h1 : topOf T thr 256 s = topOf T thr 255 p := by
    show topOf T thr (255 + 1) s = _
    rw [topOf, hu]; simp only [hp, if_true]
  rw [h1]
  have := hT.up_gray s hs p hu
  exact topOf_fuel hT (hT.up_live s hs p hu) (by omega) (by omega)

theorem topOf_above (hT : T.Ok) {thr : Int} {s a : Nat} (hs : T.live s) (h : above T s a) (ha : (T.gr a : Int) ≤ thr) :
    topOf T thr 256 s = topOf T thr 256 a := by
  unfold above at h
  induction h using TransGen.head_induction_on with
  | single h => exact topOf_step hT hs h ha
  | head h hrest ih =>
    have hl := hT.up_live _ hs _ h
    have h3 := (above_facts hT hl hrest).2.1
    rw [topOf_step hT hs h (by omega)]
    exact ih hl

theorem topOf_le {thr : Int} : ∀ (k : Nat) (s : Nat), topOf T thr k s = s ∨
    (above T s (topOf T thr k s) ∧ (T.gr (topOf T thr k s) : Int) ≤ thr) := by
  intro k
  induction k with
  | zero => intro s; exact .inl rfl
  | succ k ih =>
    intro s
    unfold topOf
    cases hu : T.up s with
    | none => exact .inl rfl
    | some p =>
      simp only
      split
      case isFalse => exact .inl rfl
      case isTrue hp =>
        right
        rcases ih p with e | ⟨e1, e2⟩
        · rw [e]; exact ⟨.single hu, hp⟩
        · exact ⟨TransGen.head hu e1, e2⟩

theorem climbL_spec (hT : T.Ok) {R : RForest Nat} (hg : ∀ r, (R r).gray = T.gr r) (hp : ∀ r, T.live r → (R r).parent = T.up r)
    {thr : Int} : ∀ {k : Nat} {s : Nat}, T.live s → 256 ≤ T.gr s + k + 1 →
      climbL R thr k s (T.up s) = some (topOf T thr k s, T.up (topOf T thr k s)) := by
  intro k
  induction k with
  | zero =>
    intro s hs h1
    cases hu : T.up s with
    | none => simp [climbL, topOf, hu]
    | some p =>
      have := hT.up_gray s hs p hu
      have := hT.gr_lt p (hT.up_live s hs p hu)
      omega
  | succ k ih =>
    intro s hs h1
    cases hu : T.up s with
    | none => simp [climbL, topOf, hu]
    | some p =>
      have h2 := hT.up_gray s hs p hu
      have h3 := hT.up_live s hs p hu
      unfold climbL
      rw [hg]
      by_cases hle : (T.gr p : Int) ≤ thr
      · simp only [hle, if_true]
        rw [hp p h3, ih h3 (by omega)]
        simp [topOf, hu, hle]
      · simp [topOf, hu, hle]

/-- Where the search for the value of `r` may start: at `r`, at a child, or at an ancestor not beyond the range. -/
def Start (T : Recog.Tree Nat) (delta : Int) (r s : Nat) : Prop :=
  T.live s ∧ (s = r ∨ T.up s = some r ∨ (above T r s ∧ (T.gr s : Int) ≤ T.gr r + delta))

theorem Start.top (hT : T.Ok) {delta : Int} (hd : 0 < delta) {r s : Nat} (hr : T.live r) (h : Start T delta r s) :
    topOf T (T.gr r + delta) 256 s = topOf T (T.gr r + delta) 256 r := by
  rcases h with ⟨hs, rfl | h | ⟨h1, h2⟩⟩
  · rfl
  · exact topOf_step hT hs h (by omega)
  · exact (topOf_above hT hr h1 h2).symm

/-! ### The second loop -/

/-- The verdict on a region by itself. -/
def passO (T : Recog.Tree Nat) (cfg : Cfg) (r : Nat) : Prop :=
  (0 < cfg.delta → vval T cfg r ≤ cfg.stable) ∧ cfg.minPoint ≤ (T.sz r : Int) ∧ (T.sz r : Int) ≤ cfg.maxPoint

/-- State between the first loop and the removal of duplicates; `bad` are the regions found unfit. -/
structure Mid (T : Recog.Tree Nat) (merged : Nat → Bool) (n : Nat) (bad : Nat → Prop) (s : RecSt) : Prop where
  gray : ∀ r, (s.R r).gray = T.gr r
  size : ∀ r, (s.R r).size = T.sz r
  par : ∀ r, T.live r → (s.R r).parent = T.up r
  flag : ∀ r, T.live r → ((s.R r).flag = .unknown ∧ ¬ bad r) ∨ ((s.R r).flag = .invalid ∧ bad r)
  dead : ∀ r < n, merged r = true → (s.R r).flag = .invalid ∧ (s.R r).var = -1
  invalid : s.invalid = (List.range n).countP (inval s.R)

theorem Mid.congr {bad bad' : Nat → Prop} {s : RecSt} (h : Mid T merged n bad s) (hb : ∀ r, T.live r → (bad' r ↔ bad r)) :
    Mid T merged n bad' s :=
  ⟨h.gray, h.size, h.par, fun r hr => by rw [hb r hr]; exact h.flag r hr, h.dead, h.invalid⟩

/-- Marking a candidate. -/
theorem Mid.mark (h0 : Raw T merged n R0) {bad : Nat → Prop} {s : RecSt} (h : Mid T merged n bad s) {r : Nat} (hr : T.live r)
    (hf : (s.R r).flag ≠ .invalid) :
    Mid T merged n (fun x => bad x ∨ x = r) { s with R := setFlag s.R r .invalid, invalid := s.invalid + 1 } := by
  have hs := setFlag_rest s.R r
  refine ⟨fun x => (hs x _).1.trans (h.gray x), fun x => (setFlag_size s.R r x _).trans (h.size x),
    fun x hx => (hs x _).2.1.trans (h.par x hx), ?_, ?_, ?_⟩
  · intro x hx
    dsimp only
    by_cases e : x = r
    · subst e; right; exact ⟨setFlag_self _ _ _, .inr rfl⟩
    · rw [setFlag_flag_ne _ _ e]
      simpa [e] using h.flag x hx
  · intro x hn hm
    have e : x ≠ r := by rintro rfl; rw [((h0.live x).1 hr).2] at hm; cases hm
    dsimp only
    rw [setFlag_flag_ne _ _ e, (hs x _).2.2.1]
    exact h.dead x hn hm
  · dsimp only
    rw [inval_count ((h0.live r).1 hr).1 hf, h.invalid]

theorem setVar_rest (R : RForest Nat) (a x : Nat) (v : ℚ) : (setVar R a v x).gray = (R x).gray ∧
    (setVar R a v x).size = (R x).size ∧ (setVar R a v x).parent = (R x).parent ∧
    (setVar R a v x).flag = (R x).flag := by
  by_cases e : x = a
  · subst e; simp [setVar]
  · simp [setVar, Function.update_of_ne e]

/-- State of the second loop after `k` regions. -/
structure P2 (T : Recog.Tree Nat) (cfg : Cfg) (merged : Nat → Bool) (n k : Nat) (s : RecSt) : Prop where
  mid : Mid T merged n (fun r => r < k ∧ ¬ passO T cfg r) s
  var : ∀ r, T.live r → (s.R r).var = if 0 < cfg.delta ∧ r < k then vval T cfg r else -1
  short : 0 < cfg.delta → ∀ r, T.live r → Start T cfg.delta r (s.short r)

/-- The value of a region. -/
theorem stableVar_spec (h0 : Raw T merged n R0) (hT : T.Ok) (hd : 0 < cfg.delta) {k : Nat} {s : RecSt}
    (h : P2 T cfg merged n k s) {r : Nat} (hr : T.live r) (hk : k ≤ r) :
    ∃ s', stableVar cfg (n + 256) s r = some s' ∧ (s'.R r).var = vval T cfg r ∧ (∀ x, x ≠ r → (s'.R x).var = (s.R x).var) ∧
      (∀ x, (s'.R x).gray = (s.R x).gray ∧ (s'.R x).size = (s.R x).size ∧ (s'.R x).parent = (s.R x).parent ∧
        (s'.R x).flag = (s.R x).flag) ∧ s'.invalid = s.invalid ∧ ∀ x, T.live x → Start T cfg.delta x (s'.short x) := by
  have hst := h.short hd r hr
  have e1 : climbL s.R ((s.R r).gray + cfg.delta) (n + 256) (s.short r) (s.R (s.short r)).parent =
      some (topOf T (T.gr r + cfg.delta) 256 r, T.up (topOf T (T.gr r + cfg.delta) 256 r)) := by
    rw [h.mid.gray, h.mid.par _ hst.1, climbL_spec hT h.mid.gray h.mid.par hst.1 (by omega),
      topOf_fuel hT (k' := 256) hst.1 (by omega) (by omega), hst.top hT hd hr]
  have hold : (s.R r).var = -1 := by rw [h.var r hr, if_neg (by omega)]
  unfold stableVar
  dsimp only
  rw [e1]
  dsimp only
  have htop := topOf_le (T := T) (thr := T.gr r + cfg.delta) 256 r
  have hlive := topOf_live (thr := T.gr r + cfg.delta) (n := 256) hT hr
  have hv : vval T cfg r = if (T.up (topOf T (T.gr r + cfg.delta) 256 r)).isSome ∨
      (T.gr (topOf T (T.gr r + cfg.delta) 256 r) : Int) = T.gr r + cfg.delta then
      ratio32 cfg (T.sz (topOf T (T.gr r + cfg.delta) 256 r)) (T.sz r) else -1 := rfl
  generalize topOf T (T.gr r + cfg.delta) 256 r = t at *
  rw [h.mid.gray, h.mid.gray]
  by_cases hc : (T.up t).isSome ∨ (T.gr t : Int) = T.gr r + cfg.delta
  · rw [if_pos hc, h.mid.par r hr]
    rw [if_pos hc] at hv
    cases hu : T.up r with
    | none =>
      exfalso
      have ht : t = r := by
        rcases htop with e | ⟨e, -⟩
        · exact e
        · obtain ⟨c, hc', -⟩ := TransGen.head'_iff.1 e
          rw [hu] at hc'; cases hc'
      subst ht
      rcases hc with hc | hc
      · rw [hu] at hc; cases hc
      · omega
    | some p =>
      dsimp only
      refine ⟨_, rfl, ?_, ?_, fun x => setVar_rest s.R r x _, rfl, ?_⟩
      · dsimp only
        rw [hv, h.mid.size, h.mid.size]
        simp [setVar]
      · intro x hx; simp [setVar, Function.update_of_ne hx]
      · intro x hx
        dsimp only
        by_cases e : x = p
        · subst e
          rw [Function.update_self]
          refine ⟨hlive, ?_⟩
          rcases htop with e | ⟨e, e2⟩
          · right; left; rw [e]; exact hu
          · obtain ⟨c, hc1, hc2⟩ := TransGen.head'_iff.1 e
            rw [hu] at hc1
            obtain rfl := Option.some.inj hc1
            rcases Relation.reflTransGen_iff_eq_or_transGen.1 hc2 with e3 | e3
            · exact .inl e3
            · right; right
              have := hT.up_gray r hr _ hu
              exact ⟨e3, by omega⟩
        · rw [Function.update_of_ne e]; exact h.short hd x hx
  · rw [if_neg hc]
    rw [if_neg hc] at hv
    exact ⟨s, rfl, by rw [hv, hold], fun _ _ => rfl, fun _ => ⟨rfl, rfl, rfl, rfl⟩, rfl, h.short hd⟩

theorem visitO_spec (h0 : Raw T merged n R0) (hT : T.Ok) {k : Nat} (hk : k < n) {s : RecSt}
    (h : P2 T cfg merged n k s) : ∃ s', visitO cfg (n + 256) s k = some s' ∧ P2 T cfg merged n (k + 1) s' := by
  unfold visitO
  by_cases hm : merged k = true
  · have hdead := (h.mid.dead k hk hm).1
    rw [if_neg (by rw [hdead]; simp)]
    have hne : ∀ r, T.live r → r ≠ k := by rintro r hr rfl; rw [((h0.live r).1 hr).2] at hm; cases hm
    have hlt : ∀ r, T.live r → (r < k + 1 ↔ r < k) := fun r hr => by have := hne r hr; omega
    refine ⟨s, rfl, h.mid.congr fun r hr => by rw [hlt r hr], fun r hr => ?_, h.short⟩
    rw [h.var r hr]; simp only [hlt r hr]
  · have hl : T.live k := (h0.live k).2 ⟨hk, by simpa using hm⟩
    have hun : (s.R k).flag = .unknown := by
      rcases h.mid.flag k hl with e | e
      · exact e.1
      · exact absurd e.2.1 (lt_irrefl k)
    rw [if_pos (by rw [hun]; decide)]
    -- the valuation
    have hval : ∃ t, (if 0 < cfg.delta then stableVar cfg (n + 256) s k else some s) = some t ∧
        (0 < cfg.delta → (t.R k).var = vval T cfg k) ∧ (∀ x, x ≠ k ∨ ¬ 0 < cfg.delta → (t.R x).var = (s.R x).var) ∧
        (∀ x, (t.R x).gray = (s.R x).gray ∧ (t.R x).size = (s.R x).size ∧ (t.R x).parent = (s.R x).parent ∧
          (t.R x).flag = (s.R x).flag) ∧ t.invalid = s.invalid ∧
        (0 < cfg.delta → ∀ x, T.live x → Start T cfg.delta x (t.short x)) := by
      by_cases hd : 0 < cfg.delta
      · rw [if_pos hd]
        obtain ⟨t, e1, e2, e3, e4, e5, e6⟩ := stableVar_spec h0 hT hd h hl le_rfl
        exact ⟨t, e1, fun _ => e2, fun x hx => e3 x (hx.resolve_right (fun h => h hd)), e4, e5, fun _ => e6⟩
      · rw [if_neg hd]
        exact ⟨s, rfl, fun h => absurd h hd, fun _ _ => rfl, fun _ => ⟨rfl, rfl, rfl, rfl⟩, rfl, fun h => absurd h hd⟩
    obtain ⟨t, e1, e2, e3, e4, e5, e6⟩ := hval
    rw [e1]
    dsimp only
    have hinv : inval t.R = inval s.R := by funext x; unfold inval; rw [(e4 x).2.2.2]
    have hmid : Mid T merged n (fun r => r < k ∧ ¬ passO T cfg r) t := by
      refine ⟨fun r => (e4 r).1.trans (h.mid.gray r), fun r => (e4 r).2.1.trans (h.mid.size r),
        fun r hr => (e4 r).2.2.1.trans (h.mid.par r hr), fun r hr => by rw [(e4 r).2.2.2]; exact h.mid.flag r hr, ?_,
        by rw [e5, hinv]; exact h.mid.invalid⟩
      intro r hn hmr
      have : r ≠ k := by rintro rfl; exact hm hmr
      rw [(e4 r).2.2.2, e3 r (.inl this)]
      exact h.mid.dead r hn hmr
    have hvar : ∀ r, T.live r → (t.R r).var = if 0 < cfg.delta ∧ r < k + 1 then vval T cfg r else -1 := by
      intro r hr
      by_cases hd : 0 < cfg.delta
      · by_cases e : r = k
        · subst e; rw [e2 hd, if_pos ⟨hd, Nat.lt_succ_self _⟩]
        · rw [e3 r (.inl e), h.var r hr]
          have : (0 < cfg.delta ∧ r < k) ↔ (0 < cfg.delta ∧ r < k + 1) := by omega
          simp only [this]
      · rw [e3 r (.inr hd), h.var r hr, if_neg (fun h => hd h.1), if_neg (fun h => hd h.1)]
    have hbad : ¬ passO T cfg k → P2 T cfg merged n (k + 1)
        { t with R := setFlag t.R k .invalid, invalid := t.invalid + 1 } := by
      intro hp
      have h1 := hmid.mark h0 hl (by rw [(e4 k).2.2.2, hun]; decide)
      refine ⟨h1.congr fun r hr => ?_, fun r hr => ?_, e6⟩
      · constructor
        · rintro ⟨a, b⟩
          by_cases e : r = k
          · exact .inr e
          · exact .inl ⟨by omega, b⟩
        · rintro (⟨a, b⟩ | rfl)
          · exact ⟨by omega, b⟩
          · exact ⟨Nat.lt_succ_self _, hp⟩
      · dsimp only
        rw [(setFlag_rest t.R k r .invalid).2.2.1]; exact hvar r hr
    have hgood : passO T cfg k → P2 T cfg merged n (k + 1) t := by
      intro hp
      refine ⟨hmid.congr fun r hr => ?_, hvar, e6⟩
      constructor
      · rintro ⟨a, b⟩
        have : r ≠ k := by rintro rfl; exact b hp
        exact ⟨by omega, b⟩
      · rintro ⟨a, b⟩; exact ⟨by omega, b⟩
    by_cases hs : 0 < cfg.delta ∧ cfg.stable < (t.R k).var
    · rw [if_pos hs]
      refine ⟨_, rfl, hbad fun hp => ?_⟩
      have := hp.1 hs.1
      rw [← e2 hs.1] at this
      exact absurd hs.2 (not_lt.2 this)
    · rw [if_neg hs, hmid.size]
      by_cases hb : (T.sz k : Int) < cfg.minPoint ∨ cfg.maxPoint < (T.sz k : Int)
      · rw [if_pos hb]
        refine ⟨_, rfl, hbad fun hp => ?_⟩
        have := hp.2; omega
      · rw [if_neg hb]
        refine ⟨_, rfl, hgood ⟨fun hd => ?_, by omega, by omega⟩⟩
        rw [← e2 hd]
        exact not_lt.1 fun hlt => hs ⟨hd, hlt⟩

theorem loop2 (h0 : Raw T merged n R0) (hT : T.Ok) {s : RecSt} (h : P1 T merged n R0 n s) :
    ∃ s', (List.range n).foldlM (visitO cfg (n + 256)) s = some s' ∧ P2 T cfg merged n n s' := by
  refine range_foldlM (P := P2 T cfg merged n) n ⟨⟨h.gray, h.size, fun r hr => h.done r hr ((h0.live r).1 hr).1, ?_, ?_, h.invalid⟩,
    ?_, ?_⟩ (fun k s hk h => visitO_spec h0 hT hk h)
  · intro r hr
    left
    have hn := (h0.live r).1 hr
    exact ⟨by rw [h.flag r hn.1, if_neg (by rw [hn.2]; simp)], fun hb => absurd hb.1 (Nat.not_lt_zero r)⟩
  · intro r hn hm
    exact ⟨by rw [h.flag r hn, if_pos ⟨hn, hm⟩], h.var r hn⟩
  · intro r hr
    rw [if_neg (fun hb => absurd hb.2 (Nat.not_lt_zero r))]
    exact h.var r ((h0.live r).1 hr).1
  · intro _ r hr
    rw [h.short r ((h0.live r).1 hr).1]
    exact ⟨hr, .inl rfl⟩

/-! ### The third loop -/

/-- What must have happened for a live region to be dropped. -/
def badO (T : Recog.Tree Nat) (cfg : Cfg) (r : Nat) : Prop :=
  ¬ passO T cfg r ∨ (0 < cfg.delta ∧ ∃ c, upBad T cfg c r)

theorem nmsO_spec (h0 : Raw T merged n R0) (hT : T.Ok) (hn : 0 ≤ cfg.nms) {bad : Nat → Prop} {s : RecSt}
    (h : Mid T merged n bad s) (hv : ∀ r, T.live r → (s.R r).var = vval T cfg r) {c : Nat} (hc : c < n) :
    Mid T merged n (fun r => bad r ∨ upBad T cfg c r) (nmsO cfg s c) ∧
      ∀ r, T.live r → ((nmsO cfg s c).R r).var = vval T cfg r := by
  have hsame : (∀ r, T.live r → ¬ upBad T cfg c r) → Mid T merged n (fun r => bad r ∨ upBad T cfg c r) s := fun hno =>
    h.congr fun r hr => by simp [hno r hr]
  unfold nmsO
  dsimp only
  by_cases hm : merged c = true
  · have hnl : ¬ T.live c := fun hl => by rw [((h0.live c).1 hl).2] at hm; cases hm
    have hno : ∀ r, T.live r → ¬ upBad T cfg c r := fun r _ hb => hnl hb.1
    cases (s.R c).parent with
    | none => exact ⟨hsame hno, hv⟩
    | some p =>
      dsimp only
      rw [if_neg (by rw [(h.dead c hc hm).2]; intro hh; exact absurd hh.1 (by norm_num))]
      exact ⟨hsame hno, hv⟩
  · have hl : T.live c := (h0.live c).2 ⟨hc, by simpa using hm⟩
    rw [h.par c hl]
    cases hu : T.up c with
    | none =>
      refine ⟨hsame fun r _ hb => ?_, hv⟩
      obtain ⟨-, p, hp, -⟩ := hb
      rw [hu] at hp; cases hp
    | some p =>
      dsimp only
      have hlp := hT.up_live c hl p hu
      have hup : ∀ r, upBad T cfg c r ↔ pairBad T cfg c p r := by
        intro r
        constructor
        · rintro ⟨-, p', hp', hb⟩; rw [hu] at hp'; cases hp'; exact hb
        · intro hb; exact ⟨hl, p, hu, hb⟩
      rw [hv c hl, hv p hlp, h.gray, h.gray]
      -- dropping one of the two
      have hmark : ∀ q, T.live q → (∀ r, T.live r → (upBad T cfg c r ↔ r = q)) →
          Mid T merged n (fun r => bad r ∨ upBad T cfg c r)
            (if (s.R q).flag ≠ .invalid then { s with R := setFlag s.R q .invalid, invalid := s.invalid + 1 } else s) ∧
          ∀ r, T.live r → ((if (s.R q).flag ≠ .invalid then { s with R := setFlag s.R q .invalid, invalid := s.invalid + 1 }
            else s : RecSt).R r).var = vval T cfg r := by
        intro q hq hiff
        by_cases hf : (s.R q).flag ≠ .invalid
        · rw [if_pos hf]
          refine ⟨(h.mark h0 hq hf).congr fun r hr => by rw [hiff r hr], fun r hr => ?_⟩
          dsimp only
          rw [(setFlag_rest s.R q r .invalid).2.2.1]; exact hv r hr
        · rw [if_neg hf]
          refine ⟨h.congr fun r hr => ?_, hv⟩
          rw [hiff r hr]
          constructor
          · rintro (a | rfl)
            · exact a
            · rcases h.flag r hr with e | e
              · rw [e.1] at hf; exact absurd (by decide) hf
              · exact e.2
          · exact .inl
      by_cases hcond : 0 ≤ vval T cfg c ∧ 0 ≤ vval T cfg p ∧ T.gr p = T.gr c + 1
      · rw [if_pos hcond]
        have hpb : ∀ r, upBad T cfg c r ↔ hit T cfg c p r := fun r =>
          (hup r).trans ⟨fun hb => hb.2.2.2.2, fun hb => ⟨hn, hcond.2.2, hcond.1, hcond.2.1, hb⟩⟩
        by_cases h1 : cfg.nms < cfg.r32 (vval T cfg p - vval T cfg c)
        · rw [if_pos h1]
          refine hmark p hlp fun r _ => ?_
          rw [hpb]
          constructor
          · rintro (⟨-, e⟩ | ⟨e, -⟩)
            · exact e
            · exfalso; linarith
          · exact fun e => .inl ⟨h1, e⟩
        · rw [if_neg h1]
          by_cases h2 : cfg.nms < -cfg.r32 (vval T cfg p - vval T cfg c)
          · rw [if_pos h2]
            refine hmark c hl fun r _ => ?_
            rw [hpb]
            constructor
            · rintro (⟨e, -⟩ | ⟨-, e⟩)
              · exact absurd e h1
              · exact e
            · exact fun e => .inr ⟨h2, e⟩
          · rw [if_neg h2]
            refine ⟨hsame fun r _ hb => ?_, hv⟩
            rw [hpb] at hb
            rcases hb with ⟨e, -⟩ | ⟨e, -⟩
            · exact h1 e
            · exact h2 e
      · rw [if_neg hcond]
        refine ⟨hsame fun r _ hb => ?_, hv⟩
        rw [hup] at hb
        exact hcond ⟨hb.2.2.1, hb.2.2.2.1, hb.2.1⟩

theorem nmsO_fold (h0 : Raw T merged n R0) (hT : T.Ok) (hn : 0 ≤ cfg.nms) : ∀ (cs : List Nat) {bad : Nat → Prop} {s : RecSt},
    Mid T merged n bad s → (∀ r, T.live r → (s.R r).var = vval T cfg r) → (∀ c ∈ cs, c < n) →
    Mid T merged n (fun r => bad r ∨ ∃ c ∈ cs, upBad T cfg c r) (cs.foldl (nmsO cfg) s)
  | [], _, _, h, _, _ => h.congr fun r _ => by simp
  | c :: cs, _, _, h, hv, hc => by
    obtain ⟨h1, h2⟩ := nmsO_spec h0 hT hn h hv (hc c (by simp))
    refine (nmsO_fold h0 hT hn cs h1 h2 (fun c h => hc c (by simp [h]))).congr fun r _ => ?_
    simp [or_assoc]

/-- The regions after the third loop. -/
theorem loop3 (h0 : Raw T merged n R0) (hT : T.Ok) {s : RecSt} (h : P2 T cfg merged n n s) :
    Mid T merged n (badO T cfg)
      (if 0 < cfg.delta ∧ 0 ≤ cfg.nms then (List.range n).foldl (nmsO cfg) s else s) := by
  by_cases hc : 0 < cfg.delta ∧ 0 ≤ cfg.nms
  · rw [if_pos hc]
    refine (nmsO_fold h0 hT hc.2 (List.range n) h.mid (fun r hr => ?_) (fun c hc => List.mem_range.1 hc)).congr
      fun r hr => ?_
    · rw [h.var r hr, if_pos ⟨hc.1, ((h0.live r).1 hr).1⟩]
    · have hn := ((h0.live r).1 hr).1
      unfold badO
      simp only [hn, true_and, hc.1]
      refine or_congr Iff.rfl ⟨?_, ?_⟩
      · rintro ⟨c, hb⟩; exact ⟨c, List.mem_range.2 ((h0.live c).1 hb.1).1, hb⟩
      · rintro ⟨c, -, hb⟩; exact ⟨c, hb⟩
  · rw [if_neg hc]
    refine h.mid.congr fun r hr => ?_
    have hn := ((h0.live r).1 hr).1
    unfold badO
    simp only [hn, true_and]
    constructor
    · rintro (a | ⟨a, c, -, p, -, b, -⟩)
      · exact a
      · exact absurd ⟨a, b⟩ hc
    · exact .inl

/-! ### Removal of duplicates -/

theorem dupLoopV1_any (hT : T.Ok) {R : RForest Nat} (hp : ∀ r, T.live r → (R r).parent = T.up r) (st : Nat) :
    ∀ {k : Nat} {b : Nat}, T.live b → 256 ≤ T.gr b + k + 1 →
      ∃ l, dupLoopV1 cfg R st k (T.up b) = some l ∧ l.Pairwise (fun x y => T.gr x < T.gr y) ∧
        ∀ x ∈ l, T.live x ∧ T.gr b < T.gr x ∧ (R x).flag ≠ .invalid := by
  intro k
  induction k with
  | zero =>
    intro b hb h1
    have hno : T.up b = none := by
      cases hu : T.up b with
      | none => rfl
      | some p =>
        have := hT.up_gray b hb p hu
        have := hT.gr_lt p (hT.up_live b hb p hu)
        omega
    exact ⟨[], by rw [hno]; rfl, .nil, by simp⟩
  | succ k ih =>
    intro b hb h1
    cases hu : T.up b with
    | none => exact ⟨[], rfl, .nil, by simp⟩
    | some p =>
      have hlp := hT.up_live b hb p hu
      have hg := hT.up_gray b hb p hu
      obtain ⟨l, e, hl1, hl2⟩ := ih hlp (by omega)
      rw [← hp p hlp] at e
      unfold dupLoopV1
      split
      · exact ⟨[], rfl, .nil, by simp⟩
      · split
        · exact ⟨[], rfl, .nil, by simp⟩
        · split
          · exact ⟨l, e, hl1, fun x hx => ⟨(hl2 x hx).1, hg.trans (hl2 x hx).2.1, (hl2 x hx).2.2⟩⟩
          · rename_i hf
            refine ⟨p :: l, by rw [e]; rfl, List.pairwise_cons.2 ⟨fun x hx => (hl2 x hx).2.1, hl1⟩, fun x hx => ?_⟩
            rcases List.mem_cons.1 hx with rfl | hx
            · exact ⟨hlp, hg, hf⟩
            · exact ⟨(hl2 x hx).1, hg.trans (hl2 x hx).2.1, (hl2 x hx).2.2⟩

/-- The group of a region: distinct regions that are still in. -/
theorem groupV1_any (hT : T.Ok) {R : RForest Nat} (hp : ∀ r, T.live r → (R r).parent = T.up r) {r : Nat} (hr : T.live r)
    (hf : (R r).flag = .unknown) : ∃ g mid, groupV1 cfg R r = some (g, mid) ∧ g.Nodup ∧ mid < g.length ∧ r ∈ g ∧
      ∀ x ∈ g, T.live x ∧ (R x).flag ≠ .invalid := by
  obtain ⟨l, e, hl1, hl2⟩ := dupLoopV1_any (cfg := cfg) hT hp r hr (k := 256) (by omega)
  have hsort : (r :: l).Pairwise (fun x y => T.gr x < T.gr y) := List.pairwise_cons.2 ⟨fun x hx => (hl2 x hx).2.1, hl1⟩
  have hmem : ∀ x ∈ r :: l, T.live x ∧ (R x).flag ≠ .invalid := by
    intro x hx
    rcases List.mem_cons.1 hx with rfl | hx
    · exact ⟨hr, by rw [hf]; decide⟩
    · exact ⟨(hl2 x hx).1, (hl2 x hx).2.2⟩
  have hnd : ∀ {g : List Nat}, g.Pairwise (fun x y => T.gr x < T.gr y) → g.Nodup := fun h =>
    h.imp fun h e => by rw [e] at h; exact lt_irrefl _ h
  unfold groupV1 getDuplicatedV1
  rw [hp r hr, e]
  dsimp only
  by_cases hm : 0 < (r :: l).length / 2
  · rw [if_pos hm]
    have hlt : (r :: l).length / 2 < (r :: l).length := by have : 0 < (r :: l).length := by simp
                                                           omega
    rw [List.getElem?_eq_getElem hlt, List.getLast?_eq_getLast_of_ne_nil (by simp : r :: l ≠ [])]
    dsimp only
    have hlast := hmem _ (List.getLast_mem (by simp : r :: l ≠ []))
    obtain ⟨l', e', hl1', hl2'⟩ := dupLoopV1_any (cfg := cfg) hT hp ((r :: l)[(r :: l).length / 2]) hlast.1 (k := 256) (by omega)
    rw [hp _ hlast.1, e']
    refine ⟨r :: l ++ l', _, rfl, hnd (List.pairwise_append.2 ⟨hsort, hl1', fun a ha b hb => ?_⟩), ?_, by simp, ?_⟩
    · have h1 := (hl2' b hb).2.1
      have h2 : a = (r :: l).getLast (by simp) ∨ T.gr a < T.gr ((r :: l).getLast (by simp)) := by
        have h3 := List.dropLast_append_getLast (by simp : r :: l ≠ [])
        generalize hz : (r :: l).getLast (by simp) = z at h3 h1 ⊢
        rw [← h3, List.mem_append, List.mem_singleton] at ha
        rcases ha with ha | ha
        · right
          rw [← h3, List.pairwise_append] at hsort
          exact hsort.2.2 a ha z (by simp)
        · exact .inl ha
      rcases h2 with h2 | h2
      · rw [h2]; exact h1
      · omega
    · rw [List.length_append]; omega
    · intro x hx
      rcases List.mem_append.1 hx with hx | hx
      · exact hmem x hx
      · exact ⟨(hl2' x hx).1, (hl2' x hx).2.2⟩
  · rw [if_neg hm]
    exact ⟨r :: l, _, rfl, hnd hsort, by have : 0 < (r :: l).length := by simp
                                         omega, by simp, hmem⟩

theorem countP_disj {l : List Nat} {f f' h : Nat → Bool} (hd : ∀ x, f' x = true ↔ f x = true ∨ h x = true)
    (hno : ∀ x, ¬ (f x = true ∧ h x = true)) : l.countP f' = l.countP f + l.countP h := by
  induction l with
  | nil => rfl
  | cons a t ih =>
    have h1 := hd a
    have h2 := hno a
    rw [List.countP_cons, List.countP_cons, List.countP_cons, ih]
    cases hf : f a <;> cases hh : h a <;> cases hf' : f' a <;> simp [hf, hh, hf'] at h1 h2 ⊢ <;> omega

theorem countP_mem {l g : List Nat} (hl : l.Nodup) (hg : g.Nodup) (hs : ∀ x ∈ g, x ∈ l) :
    l.countP (fun x => decide (x ∈ g)) = g.length := by
  rw [List.countP_eq_length_filter]
  refine ((List.perm_ext_iff_of_nodup (hl.filter _) hg).2 fun x => ?_).length_eq
  rw [List.mem_filter, decide_eq_true_eq]
  exact ⟨fun h => h.2, fun h => ⟨hs x h, h⟩⟩

/-- State of the last loop after `k` regions. -/
structure P4 (T : Recog.Tree Nat) (n : Nat) (bad : Nat → Prop) (k : Nat) (s : RecSt) : Prop where
  gray : ∀ r, (s.R r).gray = T.gr r
  size : ∀ r, (s.R r).size = T.sz r
  par : ∀ r, T.live r → (s.R r).parent = T.up r
  flag : ∀ r < n, (s.R r).flag = .unknown ∨ (s.R r).flag = .valid ∨ (s.R r).flag = .invalid
  good : ∀ r < n, (s.R r).flag ≠ .invalid → T.live r ∧ ¬ bad r
  done : ∀ r < k, (s.R r).flag ≠ .unknown
  invalid : s.invalid = (List.range n).countP (inval s.R)

theorem dedupO_spec (h0 : Raw T merged n R0) (hT : T.Ok) {bad : Nat → Prop} {k : Nat} (hk : k < n) {s : RecSt}
    (h : P4 T n bad k s) : ∃ s', dedupO cfg s k = some s' ∧ P4 T n bad (k + 1) s' := by
  unfold dedupO
  by_cases hf : (s.R k).flag = .unknown
  · rw [if_neg (not_not.2 hf)]
    have hl : T.live k := (h.good k hk (by rw [hf]; decide)).1
    obtain ⟨g, mid, e, hnd, hmid, hkg, hg⟩ := groupV1_any (cfg := cfg) hT h.par hl hf
    rw [e]
    dsimp only
    have hmark := markGroup_spec g hnd mid s.R
    generalize hR1 : markGroup s.R g mid = R1 at hmark
    refine ⟨_, rfl, fun r => by dsimp only; rw [hmark]; exact h.gray r, fun r => by dsimp only; rw [hmark]; exact h.size r,
      fun r hr => by dsimp only; rw [hmark]; exact h.par r hr, ?_, ?_, ?_, ?_⟩
    · intro r hr
      dsimp only
      rw [hmark]
      simp only [reflag]
      split
      · split <;> simp
      · exact h.flag r hr
    · intro r hr
      dsimp only
      rw [hmark]
      simp only [reflag]
      split
      · rename_i hrg; intro _; exact h.good r hr (hg r hrg).2
      · exact h.good r hr
    · intro r hr
      dsimp only
      rw [hmark]
      simp only [reflag]
      split
      · split <;> simp
      · rename_i hrg
        have : r ≠ k := by rintro rfl; exact hrg hkg
        exact h.done r (by omega)
    · dsimp only
      have hm : g[mid]? = some g[mid] := List.getElem?_eq_getElem hmid
      have h1 : (List.range n).countP (inval R1) = (List.range n).countP (inval s.R) +
          (List.range n).countP (fun x => decide (x ∈ g.erase g[mid])) := by
        refine countP_disj (fun x => ?_) (fun x => ?_)
        · unfold inval
          rw [hmark]
          simp only [reflag, decide_eq_true_eq, hnd.mem_erase_iff]
          by_cases hx : x ∈ g
          · have := (hg x hx).2
            simp only [hx, if_true, hm, Option.some.injEq, and_true, this, false_or]
            by_cases hxm : g[mid] = x
            · simp [hxm]
            · simp [hxm, Ne.symm hxm]
          · simp [hx]
        · unfold inval
          rw [decide_eq_true_eq, decide_eq_true_eq]
          rintro ⟨a, b⟩
          exact (hg x (List.mem_of_mem_erase b)).2 a
      rw [h1, countP_mem List.nodup_range (hnd.erase _) (fun x hx => List.mem_range.2
        ((h0.live x).1 (hg x (List.mem_of_mem_erase hx)).1).1), List.length_erase_of_mem (List.getElem_mem hmid), h.invalid]
  · rw [if_pos hf]
    refine ⟨s, rfl, h.gray, h.size, h.par, h.flag, h.good, fun r hr => ?_, h.invalid⟩
    by_cases e : r = k
    · subst e; exact hf
    · exact h.done r (by omega)

/-- The steps of the last loop are those of V1. -/
theorem dedupO_V1 : ∀ (l : List Nat) {s s' : RecSt} (v : Nat), l.foldlM (dedupO cfg) s = some s' →
    ∃ v', l.foldlM (dedupStepV1 cfg) ⟨s.R, v⟩ = some ⟨s'.R, v'⟩ := by
  intro l
  induction l with
  | nil => intro s s' v h; cases h; exact ⟨v, rfl⟩
  | cons r l ih =>
    intro s s' v h
    rw [List.foldlM_cons] at h ⊢
    unfold dedupO at h
    unfold dedupStepV1
    dsimp only
    by_cases hf : (s.R r).flag ≠ .unknown
    · rw [if_pos hf] at h ⊢
      exact ih v h
    · rw [if_neg hf] at h ⊢
      cases hg : groupV1 cfg s.R r with
      | none => rw [hg] at h; cases h
      | some x =>
        rw [hg] at h
        exact ih (v + 1) h

/-- **Recognition of the original detector.** -/
theorem recognizeO_spec (h0 : Raw T merged n R0) (hT : T.Ok) (sh : Nat → Nat) :
    ∃ t, recognizeO cfg merged n ⟨R0, sh, 0⟩ = some t ∧ P4 T n (badO T cfg) n t ∧
      (Rounding cfg.r64 → cfg.dup < cfg.r64 (3 / 5) → Apart T → (∀ i j, i ≤ j → j < n → T.gr i ≤ T.gr j) →
        ∃ arr gs, (∀ r, r ∈ arr ↔ T.live r ∧ ¬ badO T cfg r) ∧ arr.Nodup ∧ arr.Pairwise (fun x y => T.gr x ≤ T.gr y) ∧
          arr.Pairwise (· < ·) ∧
          Grouping (above T) (near T cfg) arr gs ∧ ∀ r, (r < n ∧ (t.R r).flag = .valid) ↔ r ∈ kept gs) := by
  obtain ⟨s1, e1, h1⟩ := loop1 h0 hT sh
  obtain ⟨s2, e2, h2⟩ := loop2 (cfg := cfg) h0 hT h1
  have h3 := loop3 h0 hT h2
  unfold recognizeO
  rw [e1]
  dsimp only
  rw [e2]
  dsimp only
  generalize (if 0 < cfg.delta ∧ 0 ≤ cfg.nms then (List.range n).foldl (nmsO cfg) s2 else s2) = s3 at h3
  have hdead : ∀ r < n, ¬ T.live r → (s3.R r).flag = .invalid := by
    intro r hr hl
    refine (h3.dead r hr ?_).1
    by_contra hm
    exact hl ((h0.live r).2 ⟨hr, by simpa using hm⟩)
  have h4 : P4 T n (badO T cfg) 0 s3 := by
    refine ⟨h3.gray, h3.size, h3.par, fun r hr => ?_, fun r hr hf => ?_, fun r h => absurd h (Nat.not_lt_zero r), h3.invalid⟩
    · by_cases hl : T.live r
      · rcases h3.flag r hl with e | e
        · exact .inl e.1
        · exact .inr (.inr e.1)
      · exact .inr (.inr (hdead r hr hl))
    · by_cases hl : T.live r
      · rcases h3.flag r hl with e | e
        · exact ⟨hl, e.2⟩
        · exact absurd e.1 hf
      · exact absurd (hdead r hr hl) hf
  obtain ⟨t, e4, h5⟩ := range_foldlM (f := dedupO cfg) (P := P4 T n (badO T cfg)) n h4 (fun k s hk h => dedupO_spec h0 hT hk h)
  refine ⟨t, e4, h5, fun h64 hdup hap hsort => ?_⟩
  have hL : Linked T cfg s3.R := ⟨h3.gray, h3.size, fun r hr _ _ => h3.par r hr, fun r hr => by
    rcases h3.flag r hr with e | e <;> rw [e.1] <;> decide⟩
  have hmem : ∀ r, r ∈ (List.range n).filter (cand s3.R) ↔ T.live r ∧ ¬ badO T cfg r := by
    intro r
    rw [List.mem_filter, List.mem_range]
    unfold cand
    rw [decide_eq_true_eq]
    constructor
    · rintro ⟨hr, hf⟩; exact h4.good r hr (by rw [hf]; decide)
    · rintro ⟨hl, hb⟩
      refine ⟨((h0.live r).1 hl).1, ?_⟩
      rcases h3.flag r hl with e | e
      · exact e.1
      · exact absurd e.2 hb
  have hlt : ((List.range n).filter (cand s3.R)).Pairwise (· < ·) := List.pairwise_lt_range.filter _
  have hgr : ((List.range n).filter (cand s3.R)).Pairwise (fun x y => T.gr x ≤ T.gr y) :=
    hlt.imp_of_mem fun {a b} _ hb hab => hsort a b hab.le (List.mem_range.1 (List.mem_filter.1 hb).1)
  have hR : Rest T cfg s3.R ((List.range n).filter (cand s3.R)) := by
    have hpass : ∀ r ∈ (List.range n).filter (cand s3.R), passO T cfg r := fun r hr => by
      have := ((hmem r).1 hr).2
      unfold badO at this
      rw [not_or, not_not] at this
      exact this.1
    refine ⟨fun r hr => ((hmem r).1 hr).1, fun r hr => (hpass r hr).2.1, fun r hr => (hpass r hr).2.2, hgr,
      List.nodup_range.filter _, fun r hr => ?_⟩
    rw [List.mem_filter, List.mem_range]
    unfold cand
    rw [decide_eq_true_eq]
    exact ⟨fun hf => ⟨((h0.live r).1 hr).1, hf⟩, fun h => h.2⟩
  have hO : Origin T cfg s3.R ((List.range n).filter (cand s3.R)) := ⟨fun a ha hv => by
    rcases h3.flag a ha with e | e <;> rw [e.1] at hv <;> cases hv⟩
  obtain ⟨v', e5⟩ := dedupO_V1 (List.range n) 0 e4
  rw [dedupV1_loop hT h64 hdup hap (List.range n) ⟨s3.R, 0⟩ hL hR hO] at e5
  obtain ⟨u, gs, e6, hG, -, hfl⟩ := dedup_loop hT h64 (List.range n) ⟨s3.R, 0⟩ hL hR
  rw [e5] at e6
  cases e6
  refine ⟨_, gs, hmem, hR.nodup, hgr, hlt, hG, fun r => ?_⟩
  dsimp only at hfl
  rw [hfl r]
  simp only [reflag]
  constructor
  · rintro ⟨hr, hv⟩
    split at hv
    · assumption
    · split at hv
      · cases hv
      · by_cases hl : T.live r
        · rcases h3.flag r hl with e | e <;> rw [e.1] at hv <;> cases hv
        · rw [hdead r hr hl] at hv; cases hv
  · intro hk
    have := hG.kept_sub hR.nodup r hk
    exact ⟨((h0.live r).1 ((hmem r).1 this).1).1, by rw [if_pos hk]⟩

end Verif.Original
