import Verif.Model.Concurrent
import Verif.Proof.RecogAccel

/-!
# Proof: threads that run at the same time do not disturb each other

Every region is written only by the thread of its patch.  What a thread reads of other regions is either constant
or a parent link that resolves to the same live region whether it has been shortened or not.
-/

namespace Verif.Recog

open Function (update)
open Relation (ReflTransGen)
open Verif.Connect (Forest Str Res RealPar)

variable {ι : Type} [DecidableEq ι]

/-- What the first loop makes of the region `r`. -/
def settle (T : Tree ι) (cfg : Cfg) (r : ι) (x : RNode ι) : RNode ι :=
  { x with parent := T.up r, var := vval T cfg r, flag := if cfg.stable < vval T cfg r then .invalid else
      if badSize cfg { x with parent := T.up r } then .invalid else x.flag }

/-- The region `r` as it was, or with its link shortened. -/
def Raw (T : Tree ι) (r : ι) (x0 x : RNode ι) : Prop := x = x0 ∨ x = { x0 with parent := T.up r }

/-- The facts the threads start from. -/
structure Setup (T : Tree ι) (pidx : ι → Nat) (n : Nat) (regs : Nat → List ι) (R0 : RForest ι) : Prop where
  ok : T.Ok
  shows_ : Shows T R0
  nodup : ∀ k < n, (regs k).Nodup
  mem : ∀ k < n, ∀ r, r ∈ regs k ↔ T.isReg r ∧ pidx r = k
  lt : ∀ r, T.isReg r → pidx r < n

/-- Merged regions are as before. -/
structure Ext (R R' : RForest ι) : Prop where
  merged : ∀ x, (toForest R' x).merged = (toForest R x).merged
  par : ∀ x, (toForest R x).merged = true → (toForest R' x).parent = (toForest R x).parent

omit [DecidableEq ι] in
theorem Ext.refl (R : RForest ι) : Ext R R := ⟨fun _ => rfl, fun _ _ => rfl⟩

omit [DecidableEq ι] in
theorem Ext.res {R R' : RForest ι} (h : Ext R R') {k : Nat} {r x : ι} (hr : Res (toForest R) k r x) :
    Res (toForest R') k r x := Connect.res_congr h.merged h.par hr

variable {T : Tree ι} {cfg : Cfg} {pidx : ι → Nat} {n : Nat} {regs : Nat → List ι} {R0 R : RForest ι}
  {two : Bool} {cap : Nat → Nat}

omit [DecidableEq ι] in
/-- Changing live regions only. -/
theorem Ext.of_live {R' : RForest ι} (hT : T.Ok) (h : Shows T R) (h' : Shows T R')
    (hl : ∀ x, ¬ T.live x → R' x = R x) : Ext R R' := by
  refine ⟨fun x => ?_, fun x hx => ?_⟩
  · by_cases hx : T.live x
    · rw [h.live hT hx, h'.live hT hx]
    · simp only [toForest, hl x hx]
  · by_cases hlx : T.live x
    · rw [h.live hT hlx] at hx; simp at hx
    · simp only [toForest, hl x hlx]

omit [DecidableEq ι] in
/-- Resolving is unambiguous. -/
theorem Res.det {F : Forest ι} : ∀ {j k : Nat} {r x y : ι}, Res F j r x → Res F k r y → j = k ∧ x = y
  | 0, 0, _, _, _, ⟨_, h1⟩, ⟨_, h2⟩ => ⟨rfl, by rw [← h1, h2]⟩
  | 0, k + 1, _, _, _, ⟨h1, _⟩, ⟨h2, _⟩ => by rw [h1] at h2; simp at h2
  | j + 1, 0, _, _, _, ⟨h1, _⟩, ⟨h2, _⟩ => by rw [h1] at h2; simp at h2
  | j + 1, k + 1, _, _, _, ⟨_, a, h1, h2⟩, ⟨_, b, h3, h4⟩ => by
    rw [h1] at h3; cases h3
    obtain ⟨e, e'⟩ := Res.det h2 h4
    exact ⟨by rw [e], e'⟩

/-! ### What is known about a thread -/

/-- Regions `d` are finished, `rest` not begun. -/
structure Base (T : Tree ι) (cfg : Cfg) (R0 R : RForest ι) (d rest : List ι) : Prop where
  settled : ∀ x ∈ d, T.live x → R x = settle T cfg x (R0 x)
  raw : ∀ x ∈ rest, T.live x → Raw T x (R0 x) (R x)

/-- `r` is being valued and `s` was reached from it. -/
structure At (T : Tree ι) (cfg : Cfg) (r s : ι) : Prop where
  live : T.live r
  anc : ReflTransGen (fun a b => T.up a = some b) r s
  within : s = r ∨ (T.gr s : Int) ≤ T.gr r + cfg.delta

omit [DecidableEq ι] in
theorem At.live_s (hT : T.Ok) {r s : ι} (h : At T cfg r s) : T.live s := (anc_live hT h.live h.anc).1

/-- `q` is on the way from `s` to its live parent. -/
def Toward (T : Tree ι) (R : RForest ι) (s : ι) (q : Option ι) : Prop :=
  match q with
  | none => T.up s = none
  | some y => ∃ j z, j ≤ T.m ∧ T.up s = some z ∧ Res (toForest R) j y z

/-- All regions as the first loop of all threads leaves them. -/
noncomputable def settleAll (T : Tree ι) (cfg : Cfg) (R0 : RForest ι) : RForest ι := fun r =>
  open Classical in if T.live r then settle T cfg r (R0 r) else R0 r

/-- The second loop of thread `k` on the regions `d`, alone, starting from memory where all regions are settled. -/
noncomputable def solo (T : Tree ι) (cfg : Cfg) (pidx : ι → Nat) (cap : Nat → Nat) (R0 : RForest ι) (k : Nat)
    (d : List ι) : Option (AccSt ι) :=
  d.foldlM (accelVisit cfg pidx k (cap k)) ⟨⟨settleAll T cfg R0, fun _ => 0, 0⟩, []⟩

/-- The thread has not yet begun its second loop. -/
def Thread.First (t : Thread ι) : Prop := t.lev = (fun _ => 0) ∧ t.total = 0 ∧ t.deferred = []

/-- What is known about thread `k` between steps. -/
def Good (T : Tree ι) (cfg : Cfg) (pidx : ι → Nat) (two : Bool) (cap : Nat → Nat) (regs : Nat → List ι)
    (R0 : RForest ι) (k : Nat) (R : RForest ι) (t : Thread ι) : Prop :=
  match t.pc with
  | .next => t.First ∧ ∃ d, regs k = d ++ t.todo ∧ Base T cfg R0 R d t.todo
  | .load r s x => t.First ∧ ∃ d, regs k = d ++ r :: t.todo ∧ Base T cfg R0 R d t.todo ∧ At T cfg r s ∧
      ((s = r ∧ Raw T r (R0 r) (R r)) ∨ R r = { R0 r with parent := T.up r }) ∧
      (x = s ∨ ∃ j z, j < T.m ∧ T.up s = some z ∧ Res (toForest R) (j + 1) x z)
  | .look r s q => t.First ∧ ∃ d, regs k = d ++ r :: t.todo ∧ Base T cfg R0 R d t.todo ∧ At T cfg r s ∧
      ((s = r ∧ Raw T r (R0 r) (R r)) ∨ R r = { R0 r with parent := T.up r }) ∧ Toward T R s q
  | .store r s q => t.First ∧ ∃ d, regs k = d ++ r :: t.todo ∧ Base T cfg R0 R d t.todo ∧ At T cfg r s ∧
      ((s = r ∧ Raw T r (R0 r) (R r)) ∨ R r = { R0 r with parent := T.up r }) ∧ q = T.up s
  | .cond r s q => t.First ∧ ∃ d, regs k = d ++ r :: t.todo ∧ Base T cfg R0 R d t.todo ∧ At T cfg r s ∧
      R r = { R0 r with parent := T.up r } ∧ q = T.up s
  | .value r s q => t.First ∧ ∃ d, regs k = d ++ r :: t.todo ∧ Base T cfg R0 R d t.todo ∧ T.live r ∧
      Wid T (T.gr r + cfg.delta) r s ∧ R r = { R0 r with parent := T.up r } ∧ q = T.up s
  | .judge r => t.First ∧ ∃ d, regs k = d ++ r :: t.todo ∧ Base T cfg R0 R d t.todo ∧ T.live r ∧
      R r = { R0 r with parent := T.up r, var := vval T cfg r }
  | .second => two = true ∧ ∃ d a, regs k = d ++ t.todo ∧ solo T cfg pidx cap R0 k d = some a ∧ a.st.lev = t.lev ∧
      a.st.total = t.total ∧ a.deferred = t.deferred ∧ Shows T a.st.R ∧
      ∀ x ∈ regs k, T.live x → R x = a.st.R x ∧ (R x).parent = T.up x

omit [DecidableEq ι] in
theorem Base.congr {R' : RForest ι} {d rest : List ι} (h : Base T cfg R0 R d rest)
    (hx : ∀ x ∈ d ++ rest, T.live x → R' x = R x) : Base T cfg R0 R' d rest :=
  ⟨fun x hd hl => by rw [hx x (List.mem_append_left _ hd) hl]; exact h.settled x hd hl,
   fun x hd hl => by rw [hx x (List.mem_append_right _ hd) hl]; exact h.raw x hd hl⟩

omit [DecidableEq ι] in
theorem Toward.ext {R' : RForest ι} (h : Ext R R') {s : ι} {q : Option ι} (ht : Toward T R s q) : Toward T R' s q := by
  cases q with
  | none => exact ht
  | some y => obtain ⟨j, z, h0, h1, h2⟩ := ht; exact ⟨j, z, h0, h1, h.res h2⟩

/-- Steps of other threads do not matter. -/
theorem Good.other {k : Nat} {R' : RForest ι} {t : Thread ι} (h : Good T cfg pidx two cap regs R0 k R t)
    (he : Ext R R') (hx : ∀ x ∈ regs k, T.live x → R' x = R x) : Good T cfg pidx two cap regs R0 k R' t := by
  unfold Good at h ⊢
  have base : ∀ {d : List ι}, regs k = d ++ t.todo → Base T cfg R0 R d t.todo → Base T cfg R0 R' d t.todo :=
    fun e hb => hb.congr (by rw [← e]; exact hx)
  have base' : ∀ {d : List ι} {r : ι}, regs k = d ++ r :: t.todo → Base T cfg R0 R d t.todo →
      Base T cfg R0 R' d t.todo := fun e hb => hb.congr (fun x hm => hx x (by
        rw [e]; rcases List.mem_append.1 hm with h | h
        · exact List.mem_append_left _ h
        · exact List.mem_append_right _ (List.mem_cons_of_mem _ h)))
  have cur : ∀ {d : List ι} {r : ι}, regs k = d ++ r :: t.todo → T.live r → R' r = R r :=
    fun e hl => hx _ (by rw [e]; simp) hl
  cases hp : t.pc with
  | next => rw [hp] at h; obtain ⟨h0, d, e, hb⟩ := h; exact ⟨h0, d, e, base e hb⟩
  | load r s x =>
    rw [hp] at h; obtain ⟨h0, d, e, hb, ha, h1, h2⟩ := h
    refine ⟨h0, d, e, base' e hb, ha, by rw [cur e ha.live]; exact h1, ?_⟩
    rcases h2 with h2 | ⟨j, z, h3, h4, h5⟩
    · exact .inl h2
    · exact .inr ⟨j, z, h3, h4, he.res h5⟩
  | look r s q =>
    rw [hp] at h; obtain ⟨h0, d, e, hb, ha, h1, h2⟩ := h
    exact ⟨h0, d, e, base' e hb, ha, by rw [cur e ha.live]; exact h1, h2.ext he⟩
  | store r s q =>
    rw [hp] at h; obtain ⟨h0, d, e, hb, ha, h1, h2⟩ := h
    exact ⟨h0, d, e, base' e hb, ha, by rw [cur e ha.live]; exact h1, h2⟩
  | cond r s q =>
    rw [hp] at h; obtain ⟨h0, d, e, hb, ha, h1, h2⟩ := h
    exact ⟨h0, d, e, base' e hb, ha, by rw [cur e ha.live]; exact h1, h2⟩
  | value r s q =>
    rw [hp] at h; obtain ⟨h0, d, e, hb, ha, h1, h2, h3⟩ := h
    exact ⟨h0, d, e, base' e hb, ha, h1, by rw [cur e ha]; exact h2, h3⟩
  | judge r =>
    rw [hp] at h; obtain ⟨h0, d, e, hb, ha, h1⟩ := h
    exact ⟨h0, d, e, base' e hb, ha, by rw [cur e ha]; exact h1⟩
  | second =>
    rw [hp] at h; obtain ⟨h0, d, a, e, h1, h2, h3, h4, h5, h6⟩ := h
    exact ⟨h0, d, a, e, h1, h2, h3, h4, h5, fun x hm hl => by rw [hx x hm hl]; exact h6 x hm hl⟩

/-! ### The second loop depends on the own regions only -/

/-- Equal for the regions of patch `k`, equal counters. -/
structure Sim (T : Tree ι) (pidx : ι → Nat) (k : Nat) (a b : AccSt ι) : Prop where
  lev : a.st.lev = b.st.lev
  total : a.st.total = b.st.total
  deferred : a.deferred = b.deferred
  own : ∀ x, T.live x → pidx x = k → a.st.R x = b.st.R x
  left : Shows T a.st.R
  right : Shows T b.st.R

/-- Only live regions of patch `k` changed. -/
def Frame (T : Tree ι) (pidx : ι → Nat) (k : Nat) (R R' : RForest ι) : Prop :=
  ∀ x, ¬ (T.live x ∧ pidx x = k) → R' x = R x

omit [DecidableEq ι] in
theorem Frame.refl {k : Nat} : Frame T pidx k R R := fun _ _ => rfl

theorem Sim.setCalc {k : Nat} {a b : AccSt ι} (h : Sim T pidx k a b) (r : ι) (g : Nat) (d : Int) :
    Sim T pidx k { a with st := { a.st with R := setCalc a.st.R r }.count g d }
      { b with st := { b.st with R := setCalc b.st.R r }.count g d } := by
  refine ⟨?_, ?_, h.deferred, ?_, h.left.setCalc r, h.right.setCalc r⟩
  · show update a.st.lev _ _ = update b.st.lev _ _; rw [h.lev]
  · show a.st.total + d = b.st.total + d; rw [h.total]
  · intro x hl hk
    show Recog.setCalc a.st.R r x = Recog.setCalc b.st.R r x
    have := h.own x hl hk
    by_cases e : x = r
    · subst e; simp [Recog.setCalc, this]
    · simp [Recog.setCalc, Function.update_of_ne e, this]

theorem Sim.setFlag {k : Nat} {a b : AccSt ι} (hT : T.Ok) (h : Sim T pidx k a b) {r : ι} (hr : T.live r) :
    Sim T pidx k { a with st := { a.st with R := setFlag a.st.R r .invalid } }
      { b with st := { b.st with R := setFlag b.st.R r .invalid } } := by
  refine ⟨h.lev, h.total, h.deferred, ?_, h.left.setFlag hT hr (by decide), h.right.setFlag hT hr (by decide)⟩
  intro x hl hk
  show Recog.setFlag a.st.R r .invalid x = Recog.setFlag b.st.R r .invalid x
  have := h.own x hl hk
  by_cases e : x = r
  · subst e; simp [Recog.setFlag, this]
  · simp [Recog.setFlag, Function.update_of_ne e, this]

theorem Sim.count {k : Nat} {a b : AccSt ι} (h : Sim T pidx k a b) (g : Nat) (d : Int) :
    Sim T pidx k { a with st := a.st.count g d } { b with st := b.st.count g d } := by
  refine ⟨?_, ?_, h.deferred, h.own, h.left, h.right⟩
  · show update a.st.lev _ _ = update b.st.lev _ _; rw [h.lev]
  · show a.st.total + d = b.st.total + d; rw [h.total]

theorem frame_setFlag {k : Nat} {r : ι} (hr : T.live r) (hk : pidx r = k) (f : Flag) :
    Frame T pidx k R (setFlag R r f) := by
  intro x hx
  have : x ≠ r := by rintro rfl; exact hx ⟨hr, hk⟩
  simp [setFlag, Function.update_of_ne this]

theorem frame_setCalc {k : Nat} {r : ι} (hr : T.live r) (hk : pidx r = k) : Frame T pidx k R (setCalc R r) := by
  intro x hx
  have : x ≠ r := by rintro rfl; exact hx ⟨hr, hk⟩
  simp [setCalc, Function.update_of_ne this]

theorem frame_setVar {k : Nat} {r : ι} (hr : T.live r) (hk : pidx r = k) (v : ℚ) :
    Frame T pidx k R (setVar R r v) := by
  intro x hx
  have : x ≠ r := by rintro rfl; exact hx ⟨hr, hk⟩
  simp [setVar, Function.update_of_ne this]

theorem frame_setParent {k : Nat} {r : ι} (hr : T.live r) (hk : pidx r = k) (p : Option ι) :
    Frame T pidx k R (setParent R r p) := by
  intro x hx
  have : x ≠ r := by rintro rfl; exact hx ⟨hr, hk⟩
  simp [setParent, Function.update_of_ne this]

theorem Sim.pair (hT : T.Ok) {k : Nat} {a b : AccSt ι} (h : Sim T pidx k a b) {r p : ι} (hr : T.live r)
    (hrk : pidx r = k) (hp : T.live p) (hpk : pidx p = k) :
    Sim T pidx k { a with st := nmsPair cfg a.st r p } { b with st := nmsPair cfg b.st r p } ∧
      Frame T pidx k a.st.R (nmsPair cfg a.st r p).R := by
  have e1 := h.own r hr hrk
  have e2 := h.own p hp hpk
  unfold nmsPair
  simp only [e1, e2]
  split
  · split
    · split
      · exact ⟨(h.count _ _).setFlag hT hp, frame_setFlag hp hpk _⟩
      · exact ⟨h.setFlag hT hp, frame_setFlag hp hpk _⟩
    · exact ⟨h, .refl⟩
  · split
    · split
      · split
        · exact ⟨(h.count _ _).setFlag hT hr, frame_setFlag hr hrk _⟩
        · exact ⟨h.setFlag hT hr, frame_setFlag hr hrk _⟩
      · exact ⟨h, .refl⟩
    · exact ⟨h, .refl⟩

omit [DecidableEq ι] in
theorem badSize_shows {R' : RForest ι} (h : Shows T R) (h' : Shows T R') {p : ι} (hp : T.live p) :
    badSize cfg (R p) = badSize cfg (R' p) := by
  have h1 := badSize_iff (cfg := cfg) (h.size p) (h.par_none hp)
  have h2 := badSize_iff (cfg := cfg) (h'.size p) (h'.par_none hp)
  exact Bool.eq_iff_iff.2 (h1.trans h2.symm)

/-- The second loop's body gives the same in both states. -/
theorem Sim.visit (hT : T.Ok) {k c : Nat} {a b : AccSt ι} (h : Sim T pidx k a b) {r : ι} (hreg : T.isReg r)
    (hrk : pidx r = k) (hpar : T.live r → (a.st.R r).parent = T.up r) :
    (accelVisit cfg pidx k c a r = none ∧ accelVisit cfg pidx k c b r = none) ∨
    ∃ a' b', accelVisit cfg pidx k c a r = some a' ∧ accelVisit cfg pidx k c b r = some b' ∧ Sim T pidx k a' b' ∧
      Frame T pidx k a.st.R a'.st.R := by
  by_cases hl : T.live r
  · have e1 := h.own r hl hrk
    have hpa := hpar hl
    have hne : (b.st.R r).flag ≠ .merged := h.right.flag_ne hT hl
    -- the part after the counting
    have go : ∀ (a1 b1 : AccSt ι) (p : ι), T.up r = some p → Sim T pidx k a1 b1 → Frame T pidx k a.st.R a1.st.R →
        ((if pidx p ≠ k then
            if (a1.st.R p).gray = (b.st.R r).gray + 1 then
              if a1.deferred.length < c then some { a1 with deferred := a1.deferred ++ [r] } else none
            else some a1
          else if cfg.nms < 0 ∨ (b.st.R r).var < 0 then some a1
          else if 0 ≤ (a1.st.R p).var ∧ (a1.st.R p).gray = (b.st.R r).gray + 1 then
            some { a1 with st := nmsPair cfg a1.st r p } else some a1 : Option (AccSt ι)) = none ∧
         (if pidx p ≠ k then
            if (b1.st.R p).gray = (b.st.R r).gray + 1 then
              if b1.deferred.length < c then some { b1 with deferred := b1.deferred ++ [r] } else none
            else some b1
          else if cfg.nms < 0 ∨ (b.st.R r).var < 0 then some b1
          else if 0 ≤ (b1.st.R p).var ∧ (b1.st.R p).gray = (b.st.R r).gray + 1 then
            some { b1 with st := nmsPair cfg b1.st r p } else some b1 : Option (AccSt ι)) = none) ∨
        ∃ a' b', (if pidx p ≠ k then
            if (a1.st.R p).gray = (b.st.R r).gray + 1 then
              if a1.deferred.length < c then some { a1 with deferred := a1.deferred ++ [r] } else none
            else some a1
          else if cfg.nms < 0 ∨ (b.st.R r).var < 0 then some a1
          else if 0 ≤ (a1.st.R p).var ∧ (a1.st.R p).gray = (b.st.R r).gray + 1 then
            some { a1 with st := nmsPair cfg a1.st r p } else some a1 : Option (AccSt ι)) = some a' ∧
         (if pidx p ≠ k then
            if (b1.st.R p).gray = (b.st.R r).gray + 1 then
              if b1.deferred.length < c then some { b1 with deferred := b1.deferred ++ [r] } else none
            else some b1
          else if cfg.nms < 0 ∨ (b.st.R r).var < 0 then some b1
          else if 0 ≤ (b1.st.R p).var ∧ (b1.st.R p).gray = (b.st.R r).gray + 1 then
            some { b1 with st := nmsPair cfg b1.st r p } else some b1 : Option (AccSt ι)) = some b' ∧
          Sim T pidx k a' b' ∧ Frame T pidx k a.st.R a'.st.R := by
      intro a1 b1 p hu h1 hf
      have hlp := hT.up_live r hl p hu
      have hg : (a1.st.R p).gray = (b1.st.R p).gray := by rw [h1.left.gray, h1.right.gray]
      rw [hg, h1.deferred]
      by_cases hpk : pidx p ≠ k
      · simp only [if_pos hpk]
        split
        · split
          · exact .inr ⟨_, _, rfl, rfl, ⟨h1.lev, h1.total, by rfl, h1.own, h1.left, h1.right⟩, hf⟩
          · exact .inl ⟨rfl, rfl⟩
        · exact .inr ⟨_, _, rfl, rfl, h1, hf⟩
      · simp only [if_neg hpk]
        rw [not_not] at hpk
        rw [h1.own p hlp hpk]
        split
        · exact .inr ⟨_, _, rfl, rfl, h1, hf⟩
        · split
          · obtain ⟨h2, h3⟩ := h1.pair (cfg := cfg) hT hl hrk hlp hpk
            exact .inr ⟨_, _, rfl, rfl, ⟨h2.lev, h2.total, rfl, h2.own, h2.left, h2.right⟩,
              fun x hx => (h3 x hx).trans (hf x hx)⟩
          · exact .inr ⟨_, _, rfl, rfl, h1, hf⟩
    unfold accelVisit
    rw [e1] at hpa ⊢
    simp only [hne, if_false, hpa]
    split
    · cases hu : T.up r with
      | none => exact .inl ⟨rfl, rfl⟩
      | some p => exact go _ _ p hu (h.setCalc r _ _) (frame_setCalc hl hrk)
    · cases hu : T.up r with
      | none => exact .inr ⟨_, _, rfl, rfl, h, .refl⟩
      | some p =>
        have hb := badSize_shows (cfg := cfg) h.left h.right (hT.up_live r hl p hu)
        simp only [hb]
        split
        · exact .inr ⟨_, _, rfl, rfl, h, .refl⟩
        · exact go _ _ p hu h .refl
  · have h1 : (a.st.R r).flag = .merged := (h.left.merged r hreg).2 hl
    have h2 : (b.st.R r).flag = .merged := (h.right.merged r hreg).2 hl
    unfold accelVisit
    simp only [h1, h2, if_true]
    exact .inr ⟨_, _, rfl, rfl, h, .refl⟩

theorem nmsPair_parent (s : RSt ι) (r p x : ι) : ((nmsPair cfg s r p).R x).parent = (s.R x).parent := by
  have hs : ∀ (S : RForest ι) (z : ι), (setFlag S z .invalid x).parent = (S x).parent := by
    intro S z
    by_cases e : x = z
    · subst e; simp [setFlag]
    · simp [setFlag, Function.update_of_ne e]
  unfold nmsPair
  dsimp only
  split
  · split
    · split <;> exact hs _ _
    · rfl
  · split
    · split
      · split <;> exact hs _ _
      · rfl
    · rfl

/-- The second loop leaves all links alone. -/
theorem accelVisit_parent {k c : Nat} {a b : AccSt ι} {r : ι} (h : accelVisit cfg pidx k c a r = some b) (x : ι) :
    (b.st.R x).parent = (a.st.R x).parent := by
  have hc : ((setCalc a.st.R r) x).parent = (a.st.R x).parent := by
    by_cases e : x = r
    · subst e; simp [setCalc]
    · simp [setCalc, Function.update_of_ne e]
  have go : ∀ (a1 : AccSt ι) (p : ι) (v : ℚ) (g : Nat), (a1.st.R x).parent = (a.st.R x).parent →
      (if pidx p ≠ k then
        if (a1.st.R p).gray = g + 1 then
          if a1.deferred.length < c then some { a1 with deferred := a1.deferred ++ [r] } else none
        else some a1
      else if cfg.nms < 0 ∨ v < 0 then some a1
      else if 0 ≤ (a1.st.R p).var ∧ (a1.st.R p).gray = g + 1 then
        some { a1 with st := nmsPair cfg a1.st r p } else some a1 : Option (AccSt ι)) = some b →
      (b.st.R x).parent = (a.st.R x).parent := by
    intro a1 p v g h1 h2
    split at h2
    · split at h2
      · split at h2
        · cases h2; exact h1
        · simp at h2
      · cases h2; exact h1
    · split at h2
      · cases h2; exact h1
      · split at h2
        · cases h2; exact (nmsPair_parent _ _ _ _).trans h1
        · cases h2; exact h1
  unfold accelVisit at h
  dsimp only at h
  split at h
  · cases h; rfl
  · split at h
    · split at h
      · simp at h
      · exact go _ _ _ _ hc h
    · split at h
      · cases h; rfl
      · split at h
        · cases h; rfl
        · exact go _ _ _ _ rfl h

end Verif.Recog
