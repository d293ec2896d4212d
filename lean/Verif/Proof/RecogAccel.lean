import Verif.Proof.RecogNms

/-!
# Proof: selection with four threads

Each thread values, judges, counts and compares the regions of its own patch; comparisons across patches are
deferred to a loop at the end.
-/

namespace Verif.Recog

open Function (update)
open Relation (ReflTransGen)
open Verif.Spec (Rounding)

variable {ι : Type} [DecidableEq ι] {T : Tree ι} {cfg : Cfg} {uv : Bool} {dom : ι → Prop} {l : List ι}
  {bad : ι → Prop} {s : RSt ι}

/-! ### The widest ancestor -/

/-- `s` is the last region at or above `r` reached without exceeding level `thr`. -/
structure Wid (T : Tree ι) (thr : Int) (r s : ι) : Prop where
  anc : ReflTransGen (fun a b => T.up a = some b) r s
  within : s = r ∨ (T.gr s : Int) ≤ thr
  last : ∀ p, T.up s = some p → thr < (T.gr p : Int)

omit [DecidableEq ι] in
theorem topOf_wid (hT : T.Ok) {thr : Int} : ∀ {n : Nat} {s : ι}, T.live s → 256 ≤ T.gr s + n + 1 →
    Wid T thr s (topOf T thr n s)
  | 0, s, h, hn => by
    refine ⟨.refl, .inl rfl, fun p hp => ?_⟩
    have hp' : T.up s = some p := hp
    have := hT.up_gray s h p hp'
    have := hT.gr_lt p (hT.up_live s h p hp')
    omega
  | n + 1, s, h, hn => by
    unfold topOf
    cases hu : T.up s with
    | none => exact ⟨.refl, .inl rfl, fun p hp => by rw [hu] at hp; simp at hp⟩
    | some p =>
      have hg := hT.up_gray s h p hu
      simp only
      by_cases hle : (T.gr p : Int) ≤ thr
      · rw [if_pos hle]
        have := topOf_wid hT (thr := thr) (n := n) (hT.up_live s h p hu) (by omega)
        refine ⟨.head hu this.anc, ?_, this.last⟩
        rcases this.within with e | e
        · right; rw [e]; exact hle
        · exact .inr e
      · rw [if_neg hle]
        refine ⟨.refl, .inl rfl, fun q hq => ?_⟩
        rw [hu] at hq; cases hq; omega

omit [DecidableEq ι] in
theorem anc_live (hT : T.Ok) {r s : ι} (hr : T.live r) (h : ReflTransGen (fun a b => T.up a = some b) r s) :
    T.live s ∧ T.gr r ≤ T.gr s ∧ T.sz r ≤ T.sz s ∧ (T.gr r = T.gr s → r = s) := by
  induction h with
  | refl => exact ⟨hr, Nat.le_refl _, Nat.le_refl _, fun _ => rfl⟩
  | tail _ h ih =>
    have h1 := hT.up_gray _ ih.1 _ h
    have h2 := hT.sz_lt _ ih.1 _ h
    exact ⟨hT.up_live _ ih.1 _ h, by omega, by omega, fun e => by omega⟩

omit [DecidableEq ι] in
theorem Wid.unique (hT : T.Ok) {thr : Int} {r s s' : ι} (hr : T.live r) (h : Wid T thr r s) (h' : Wid T thr r s') :
    s = s' := by
  have key : ∀ {s s' : ι}, Wid T thr r s → Wid T thr r s' → ReflTransGen (fun a b => T.up a = some b) s s' → s = s' := by
    intro s s' h h' hss
    rcases ReflTransGen.cases_head hss with e | ⟨p, hp, hps⟩
    · exact e
    · exfalso
      have hs := anc_live hT hr h.anc
      have h1 := h.last p hp
      have h2 := anc_live hT (hT.up_live s hs.1 p hp) hps
      have h3 := hT.up_gray s hs.1 p hp
      rcases h'.within with e | e
      · subst e; omega
      · omega
  rcases ReflTransGen.total_of_right_unique (U := by
    intro a b c h1 h2; rw [h1] at h2; exact Option.some.inj h2) h.anc h'.anc with h0 | h0
  · exact key h h' h0
  · exact (key h' h h0).symm

omit [DecidableEq ι] in
theorem ratio32_nonneg (h32 : Rounding cfg.r32) {a b : Nat} (h : b ≤ a) : 0 ≤ ratio32 cfg a b := by
  have h0 : cfg.r32 0 = 0 := by have := h32.neg 0; simp at this; linarith
  have hp : ∀ x : ℚ, 0 ≤ x → 0 ≤ cfg.r32 x := fun x hx => by have := h32.mono 0 x hx; rwa [h0] at this
  refine hp _ (div_nonneg (hp _ ?_) (hp _ ?_))
  · exact Int.cast_nonneg (by omega)
  · positivity

omit [DecidableEq ι] in
theorem vval_neg (hT : T.Ok) (h32 : Rounding cfg.r32) {r : ι} (hr : T.live r) : vval T cfg r < 0 ↔
    (T.up (topOf T (T.gr r + cfg.delta) 256 r) = none ∧
      (T.gr (topOf T (T.gr r + cfg.delta) 256 r) : Int) ≠ T.gr r + cfg.delta) := by
  have hw := topOf_wid hT (thr := T.gr r + cfg.delta) (n := 256) hr (by omega)
  have hsz := (anc_live hT hr hw.anc).2.2.1
  unfold vval
  simp only
  split
  · rename_i h
    constructor
    · intro h'; exact absurd h' (not_lt.2 (ratio32_nonneg h32 hsz))
    · rintro ⟨h1, h2⟩
      rcases h with h | h
      · rw [h1] at h; simp at h
      · exact absurd h h2
  · rename_i h
    rw [not_or, Option.not_isSome_iff_eq_none] at h
    constructor
    · intro _; exact h
    · intro _; norm_num

omit [DecidableEq ι] in
/-- If the parent one level above has a stability value, so has the child. -/
theorem vval_child (hT : T.Ok) (h32 : Rounding cfg.r32) {c p : ι} (hc : T.live c) (hu : T.up c = some p)
    (hg : T.gr p = T.gr c + 1) (hp : 0 ≤ vval T cfg p) : 0 ≤ vval T cfg c := by
  by_contra hn
  rw [not_le, vval_neg hT h32 hc] at hn
  have hw := topOf_wid hT (thr := T.gr c + cfg.delta) (n := 256) hc (by omega)
  have hlp := hT.up_live c hc p hu
  generalize topOf T (T.gr c + cfg.delta) 256 c = t at hn hw
  have hlt := (anc_live hT hc hw.anc).1
  rcases ReflTransGen.cases_head hw.anc with e | ⟨q, hq, hqt⟩
  · subst e; rw [hu] at hn; simp at hn
  · rw [hu] at hq; cases hq
    have hgt : (T.gr t : Int) ≤ T.gr c + cfg.delta := by
      rcases hw.within with e | e
      · have := (anc_live hT hlp hqt).2.1; subst e; omega
      · exact e
    have hw' : Wid T (T.gr p + cfg.delta) p t := by
      refine ⟨hqt, .inr (by rw [hg]; push_cast; omega), fun q hq => ?_⟩
      rw [hn.1] at hq; simp at hq
    have e := (topOf_wid hT (thr := T.gr p + cfg.delta) (n := 256) hlp (by omega)).unique hT hlp hw'
    have := (vval_neg hT h32 hlp).2 ⟨by rw [e]; exact hn.1, by
      rw [e, hg]; push_cast; intro h; exact hn.2 (by omega)⟩
    linarith

/-! ### Adding up counters -/

/-- Counters of earlier threads added. -/
def plus (a s : RSt ι) : RSt ι := ⟨s.R, fun g => a.lev g + s.lev g, a.total + s.total⟩

theorem plus_count (a s : RSt ι) (g : Nat) (d : Int) : plus a (s.count g d) = (plus a s).count g d := by
  unfold plus RSt.count
  simp only [RSt.mk.injEq, true_and]
  refine ⟨?_, by omega⟩
  funext g'
  by_cases e : g' = g
  · subst e; simp only [Function.update_self]; omega
  · simp only [Function.update_of_ne e]

theorem plus_nmsPair (a s : RSt ι) (c p : ι) : plus a (nmsPair cfg s c p) = nmsPair cfg (plus a s) c p := by
  unfold nmsPair
  have hR : (plus a s).R = s.R := rfl
  simp only [hR]
  split
  · split
    · split
      · show plus a { (s.count _ _) with R := _ } = _
        rw [← plus_count]; rfl
      · rfl
    · rfl
  · split
    · split
      · split
        · show plus a { (s.count _ _) with R := _ } = _
          rw [← plus_count]; rfl
        · rfl
      · rfl
    · rfl

/-! ### One thread of four -/

/-- The pair of `c` and its parent in the same patch suppresses `r`. -/
def inBad (T : Tree ι) (cfg : Cfg) (pidx : ι → Nat) (c r : ι) : Prop :=
  T.live c ∧ ∃ p, T.up c = some p ∧ pidx p = pidx c ∧ pairBad T cfg c p r

/-- The deferred regions are those with a parent in another patch one level above, except where the
comparison is pointless. -/
structure Def (T : Tree ι) (cfg : Cfg) (pidx : ι → Nat) (l : List ι) (bad : ι → Prop) (D : List ι) : Prop where
  sound : ∀ c ∈ D, T.live c ∧ c ∈ l ∧ ∃ p, T.up c = some p ∧ T.gr p = T.gr c + 1
  complete : ∀ c ∈ l, T.live c → ∀ p, T.up c = some p → pidx p ≠ pidx c → T.gr p = T.gr c + 1 →
    c ∈ D ∨ (bad c ∧ ¬ pass1 T cfg true p)

theorem accelVisit_step (hT : T.Ok) {pidx : ι → Nat} {k cap : Nat} {d : List ι} {a0 : RSt ι} {b : AccSt ι}
    {D0 : List ι} (h : Q T cfg (fun r => T.live r ∧ r ∈ d) l bad (plus a0 b.st)) (hnd : l.Nodup) {x : ι}
    (hx : x ∉ l) (hxd : x ∈ d) (hxk : pidx x = k) (hreg : T.isReg x)
    (hown : ∀ r, T.live r → pidx r = k → r ∈ d) (hcap : b.deferred.length < cap)
    (hb : ∀ r, T.live r → r ∈ d → ¬ pass1 T cfg true r → bad r)
    (hD : Def T cfg pidx l bad (D0 ++ b.deferred)) :
    ∃ b', accelVisit cfg pidx k cap b x = some b' ∧
      Q T cfg (fun r => T.live r ∧ r ∈ d) (l ++ [x]) (fun r => bad r ∨ inBad T cfg pidx x r) (plus a0 b'.st) ∧
      Def T cfg pidx (l ++ [x]) (fun r => bad r ∨ inBad T cfg pidx x r) (D0 ++ b'.deferred) ∧
      b'.deferred.length ≤ b.deferred.length + 1 := by
  have hnd' : (l ++ [x]).Nodup := by
    rw [List.nodup_append]; exact ⟨hnd, by simp, by intro a ha b hb; simp at hb; rintro rfl; subst hb; exact hx ha⟩
  -- keeping the deferred list
  have keepD : (∀ p, T.live x → T.up x = some p → pidx p ≠ k → T.gr p = T.gr x + 1 → bad x ∧ ¬ pass1 T cfg true p) →
      Def T cfg pidx (l ++ [x]) (fun r => bad r ∨ inBad T cfg pidx x r) (D0 ++ b.deferred) := by
    intro hk
    refine ⟨fun c hc => ?_, fun c hc hlc p hu hne hg => ?_⟩
    · obtain ⟨h1, h2, h3⟩ := hD.sound c hc
      exact ⟨h1, by simp [h2], h3⟩
    · rcases List.mem_append.1 hc with hc | hc
      · exact (hD.complete c hc hlc p hu hne hg).imp_right fun h => ⟨.inl h.1, h.2⟩
      · rw [List.mem_singleton] at hc; subst hc
        obtain ⟨h1, h2⟩ := hk p hlc hu (by rw [← hxk]; exact hne) hg
        exact .inr ⟨.inl h1, h2⟩
  unfold accelVisit
  have hRb : (plus a0 b.st).R = b.st.R := rfl
  by_cases hlx : T.live x
  · have hfl : (b.st.R x).flag ≠ .merged := h.nst.shows_.flag_ne hT hlx
    have hvar : (b.st.R x).var = vval T cfg x := h.nst.var rfl x ⟨hlx, hxd⟩
    have hgr : (b.st.R x).gray = T.gr x := h.nst.shows_.gray x
    have hpar : (b.st.R x).parent = T.up x := h.nst.par x ⟨hlx, hxd⟩ (.inl rfl)
    simp only [hfl, if_false, hvar, hgr, hpar]
    have hub : ∀ p, T.up x = some p → pidx p = k → ∀ r, (inBad T cfg pidx x r ↔ pairBad T cfg x p r) := by
      intro p hu hk r; simp [inBad, hlx, hu, hk, hxk]
    have hub' : ∀ p, T.up x = some p → pidx p ≠ k → ∀ r, ¬ inBad T cfg pidx x r := by
      rintro p hu hk r ⟨_, q, hq, hqk, _⟩
      rw [hu] at hq; cases hq; exact hk (by rw [hqk, hxk])
    -- the comparison
    have go : ∀ (s1 : RSt ι) (p : ι), T.up x = some p →
        Q T cfg (fun r => T.live r ∧ r ∈ d) (l ++ [x]) bad (plus a0 s1) →
        ∃ b', (if pidx p ≠ k then
            if (s1.R p).gray = T.gr x + 1 then
              if b.deferred.length < cap then some { st := s1, deferred := b.deferred ++ [x] } else none
            else some { st := s1, deferred := b.deferred }
          else if cfg.nms < 0 ∨ vval T cfg x < 0 then some { st := s1, deferred := b.deferred }
          else if 0 ≤ (s1.R p).var ∧ (s1.R p).gray = T.gr x + 1 then
            some { st := nmsPair cfg s1 x p, deferred := b.deferred }
          else some { st := s1, deferred := b.deferred } : Option (AccSt ι)) = some b' ∧
        Q T cfg (fun r => T.live r ∧ r ∈ d) (l ++ [x]) (fun r => bad r ∨ inBad T cfg pidx x r) (plus a0 b'.st) ∧
        Def T cfg pidx (l ++ [x]) (fun r => bad r ∨ inBad T cfg pidx x r) (D0 ++ b'.deferred) ∧
        b'.deferred.length ≤ b.deferred.length + 1 := by
      intro s1 p hu h1
      have hlp := hT.up_live x hlx p hu
      have hg1 : (s1.R p).gray = T.gr p := h1.nst.shows_.gray p
      rw [hg1]
      by_cases hpk : pidx p ≠ k
      · rw [if_pos hpk]
        have hq := h1.congr (bad' := fun r => bad r ∨ inBad T cfg pidx x r) fun r _ => by simp [hub' p hu hpk r]
        by_cases hg : T.gr p = T.gr x + 1
        · rw [if_pos hg, if_pos hcap]
          refine ⟨_, rfl, hq, ⟨fun c hc => ?_, fun c hc hlc q hq' hne hgq => ?_⟩, by simp⟩
          · rw [← List.append_assoc, List.mem_append, List.mem_singleton] at hc
            rcases hc with hc | rfl
            · obtain ⟨h1, h2, h3⟩ := hD.sound c hc
              exact ⟨h1, by simp [h2], h3⟩
            · exact ⟨hlx, by simp, p, hu, hg⟩
          · rcases List.mem_append.1 hc with hc | hc
            · refine (hD.complete c hc hlc q hq' hne hgq).imp (fun h => ?_) fun h => ⟨.inl h.1, h.2⟩
              rw [← List.append_assoc]; exact List.mem_append_left _ h
            · rw [List.mem_singleton] at hc; subst hc; left; simp
        · rw [if_neg hg]
          refine ⟨_, rfl, hq, keepD fun q _ hq _ hg' => ?_, by simp⟩
          rw [hu] at hq; cases hq; exact absurd hg' hg
      · rw [if_neg hpk]
        rw [not_not] at hpk
        have hdp : T.live p ∧ p ∈ d := ⟨hlp, hown p hlp hpk⟩
        have hv1 : (s1.R p).var = vval T cfg p := h1.nst.var rfl p hdp
        rw [hv1]
        have hkeep := keepD fun q _ hq hqk _ => by rw [hu] at hq; cases hq; exact absurd hpk hqk
        by_cases hn : cfg.nms < 0 ∨ vval T cfg x < 0
        · rw [if_pos hn]
          refine ⟨_, rfl, h1.congr fun r _ => ?_, hkeep, by simp⟩
          rw [hub p hu hpk r]
          constructor
          · rintro (hb | hb)
            · exact hb
            · rcases hn with hn | hn
              · exact absurd hb.1 (not_le.2 hn)
              · exact absurd hb.2.2.1 (not_le.2 hn)
          · exact .inl
        · rw [if_neg hn]
          rw [not_or, not_lt, not_lt] at hn
          by_cases hc : 0 ≤ vval T cfg p ∧ T.gr p = T.gr x + 1
          · rw [if_pos hc]
            refine ⟨_, rfl, ?_, hkeep, by simp⟩
            rw [plus_nmsPair]
            refine (h1.pair hT hn.1 hnd' hlx hlp ⟨hlx, hxd⟩ hdp).congr fun r _ => ?_
            rw [hub p hu hpk r]; simp [pairBad, hn, hc]
          · rw [if_neg hc]
            refine ⟨_, rfl, h1.congr fun r _ => ?_, hkeep, by simp⟩
            rw [hub p hu hpk r]
            constructor
            · rintro (hb | hb)
              · exact hb
              · exact absurd ⟨hb.2.2.2.1, hb.2.1⟩ hc
            · exact .inl
    by_cases hun : (b.st.R x).flag = .unknown
    · rw [if_pos hun]
      have hq := h.countIn hx hun
      have e : ({ plus a0 b.st with R := setCalc (plus a0 b.st).R x } : RSt ι).count ((plus a0 b.st).R x).gray 1 =
          plus a0 ({ b.st with R := setCalc b.st.R x }.count (T.gr x) 1) := by
        rw [plus_count, hRb, hgr]; rfl
      rw [e] at hq
      cases hu : T.up x with
      | none =>
        exact absurd (hb x hlx hxd fun hp => hp.2.2.2 hu) ((h.nst.unknown_iff ⟨hlx, hxd⟩).1 hun)
      | some p => exact go _ p hu hq
    · rw [if_neg hun]
      have hq := h.countOut hun
      have hbx : bad x := not_not.1 fun hn => hun ((h.nst.unknown_iff ⟨hlx, hxd⟩).2 hn)
      cases hu : T.up x with
      | none =>
        refine ⟨b, rfl, hq.congr fun r _ => by simp [inBad, hu], keepD fun q _ hq => ?_, by simp⟩
        rw [hu] at hq; simp at hq
      | some p =>
        have hlp := hT.up_live x hlx p hu
        simp only
        have hbs := badSize_iff (T := T) (cfg := cfg) (x := b.st.R p) (r := p) (h.nst.shows_.size p)
          (h.nst.shows_.par_none hlp)
        by_cases hpi : badSize cfg (b.st.R p) = true
        · rw [if_pos hpi]
          have hnp : ¬ pass1 T cfg true p := fun hp => hbs.1 hpi hp.2
          refine ⟨b, rfl, ?_, keepD fun q _ hq _ _ => ?_, by simp⟩
          · by_cases hpk : pidx p = k
            · exact (hq.pair_none (c := x) (p := p) hbx (hb p hlp (hown p hlp hpk) hnp)).congr
                fun r _ => by rw [hub p hu hpk r]
            · exact hq.congr fun r _ => by simp [hub' p hu hpk r]
          · rw [hu] at hq; cases hq; exact ⟨hbx, hnp⟩
        · rw [if_neg hpi]
          exact go b.st p hu hq
  · have hm : (b.st.R x).flag = .merged := (h.nst.shows_.merged x hreg).2 hlx
    simp only [hm, if_true]
    refine ⟨b, rfl, (h.countOut (by rw [hRb, hm]; simp)).congr fun r _ => by simp [inBad, hlx], ?_, by simp⟩
    exact keepD fun p hl => absurd hl hlx

/-- The regions dropped once the patches with regions `l` are finished. -/
def accBad (T : Tree ι) (cfg : Cfg) (pidx : ι → Nat) (l : List ι) (r : ι) : Prop :=
  ¬ pass1 T cfg true r ∨ ∃ c ∈ l, inBad T cfg pidx c r

/-- One thread. -/
theorem accelThread_spec (hT : T.Ok) {pidx : ι → Nat} {fuel : Nat} (hf : T.m ≤ fuel) {regs : Nat → List ι}
    {cap : Nat → Nat} {k : Nat} {a : AccSt ι} {d : List ι}
    (h : Q T cfg (fun r => T.live r ∧ r ∈ d) d (accBad T cfg pidx d) a.st) (hnd : (d ++ regs k).Nodup)
    (hD : Def T cfg pidx d (accBad T cfg pidx d) a.deferred) (hreg : ∀ x ∈ regs k, T.isReg x)
    (hk : ∀ r, T.isReg r → (pidx r = k ↔ r ∈ regs k)) (hcap : (regs k).length ≤ cap k)
    (hout : ∀ r ∈ d, pidx r ≠ k) :
    ∃ b, accelThread cfg pidx fuel cap regs k a.st.R = some b ∧
      Q T cfg (fun r => T.live r ∧ r ∈ d ++ regs k) (d ++ regs k) (accBad T cfg pidx (d ++ regs k)) (plus a.st b.st) ∧
      Def T cfg pidx (d ++ regs k) (accBad T cfg pidx (d ++ regs k)) (a.deferred ++ b.deferred) := by
  have hn := List.nodup_append.1 hnd
  obtain ⟨R1, e1, h1⟩ := h.worker hT (pidx := pidx) (k := k) (regs := regs) hf hnd (fun _ hx => hx) hreg
    (fun x hx hlx => by
      constructor
      · rintro (hb | ⟨c, hc, hlc, p, hu, hpk, hb⟩)
        · exact hb
        · exfalso
          have hxk := (hk x (hreg x hx)).2 hx
          rcases hb.2.2.2.2 with ⟨_, rfl⟩ | ⟨_, rfl⟩
          · exact hout c hc (by rw [← hpk, hxk])
          · exact hout x hc hxk
      · exact .inl)
  have hown : ∀ r, T.live r → pidx r = k → r ∈ d ++ regs k := fun r hr hrk =>
    List.mem_append_right _ ((hk r (hT.reg r hr)).1 hrk)
  have e0 : plus a.st ⟨R1, fun _ => 0, 0⟩ = { a.st with R := R1 } := by simp [plus]
  have hsplit : ∀ (t : List ι) (x r : ι), accBad T cfg pidx (d ++ (t ++ [x])) r ↔
      (accBad T cfg pidx (d ++ t) r ∨ inBad T cfg pidx x r) := by
    intro t x r
    unfold accBad
    rw [or_assoc]
    refine or_congr Iff.rfl ?_
    rw [← List.append_assoc]
    generalize d ++ t = u
    constructor
    · rintro ⟨c, hc, h⟩
      rcases List.mem_append.1 hc with hc | hc
      · exact .inl ⟨c, hc, h⟩
      · rw [List.mem_singleton] at hc; subst hc; exact .inr h
    · rintro (⟨c, hc, h⟩ | h)
      · exact ⟨c, by simp [hc], h⟩
      · exact ⟨x, by simp, h⟩
  obtain ⟨b, e2, h2⟩ := foldlM_inv (f := accelVisit cfg pidx k (cap k)) (s0 := ⟨⟨R1, fun _ => 0, 0⟩, []⟩)
    (P := fun t b => (d ++ t).Nodup ∧
      Q T cfg (fun r => T.live r ∧ r ∈ d ++ regs k) (d ++ t) (accBad T cfg pidx (d ++ t)) (plus a.st b.st) ∧
      Def T cfg pidx (d ++ t) (accBad T cfg pidx (d ++ t)) (a.deferred ++ b.deferred) ∧
      b.deferred.length ≤ t.length) (order := regs k) hn.2.1
    ⟨by simpa using hn.1, by simpa only [List.append_nil, e0] using h1, by simpa using hD, by simp⟩
    (fun t b x ⟨hnt, hq, hd, hlen⟩ hx hxt hsub => by
      have hxd : x ∉ d := fun hd => hn.2.2 x hd x hx rfl
      have hxin : x ∉ d ++ t := by simp [hxd, hxt]
      have hlt : t.length < (regs k).length := by
        have h3 : (t ++ [x]).Nodup := by
          rw [List.nodup_append]
          exact ⟨(List.nodup_append.1 hnt).2.1, by simp, by
            intro a ha b hb; simp at hb; rintro rfl; subst hb; exact hxt ha⟩
        have := (h3.subperm (l₂ := regs k) (fun y hy => by
          rcases List.mem_append.1 hy with hy | hy
          · exact hsub y hy
          · rw [List.mem_singleton] at hy; subst hy; exact hx)).length_le
        simp only [List.length_append, List.length_singleton] at this; omega
      obtain ⟨b', e', h3, h4, h5⟩ := accelVisit_step hT (k := k) (cap := cap k) (d := d ++ regs k) hq hnt hxin
        (List.mem_append_right _ hx) ((hk x (hreg x hx)).2 hx) (hreg x hx) hown (by omega)
        (fun r _ _ hp => .inl hp) hd
      refine ⟨b', e', ?_, ?_, ?_, ?_⟩
      · rw [← List.append_assoc, List.nodup_append]
        exact ⟨hnt, by simp, by intro a ha b hb; simp at hb; rintro rfl; subst hb; exact hxin ha⟩
      · rw [← List.append_assoc]
        exact h3.congr fun r _ => by rw [List.append_assoc]; exact hsplit t x r
      · rw [← List.append_assoc]
        refine ⟨h4.sound, fun c hc hlc p hu hne hg => (h4.complete c hc hlc p hu hne hg).imp_right fun h => ⟨?_, h.2⟩⟩
        rw [List.append_assoc]; exact (hsplit t x c).2 h.1
      · simp only [List.length_append, List.length_singleton]; omega)
  refine ⟨b, ?_, h2.2.1, h2.2.2.1⟩
  unfold accelThread
  rw [e1]; exact e2

/-- All threads. -/
theorem accelThreads_spec (hT : T.Ok) {pidx : ι → Nat} {fuel : Nat} (hf : T.m ≤ fuel) {regs : Nat → List ι}
    {cap : Nat → Nat} : ∀ (ks : List Nat) (d : List ι) (a : AccSt ι),
      Q T cfg (fun r => T.live r ∧ r ∈ d) d (accBad T cfg pidx d) a.st →
      Def T cfg pidx d (accBad T cfg pidx d) a.deferred → (d ++ ks.flatMap regs).Nodup →
      (∀ k ∈ ks, ∀ x ∈ regs k, T.isReg x) → (∀ k ∈ ks, ∀ r, T.isReg r → (pidx r = k ↔ r ∈ regs k)) →
      (∀ k ∈ ks, (regs k).length ≤ cap k) → (∀ r ∈ d, T.isReg r) →
      ∃ b, accelThreads cfg pidx fuel cap regs ks a = some b ∧
        Q T cfg (fun r => T.live r ∧ r ∈ d ++ ks.flatMap regs) (d ++ ks.flatMap regs)
          (accBad T cfg pidx (d ++ ks.flatMap regs)) b.st ∧
        Def T cfg pidx (d ++ ks.flatMap regs) (accBad T cfg pidx (d ++ ks.flatMap regs)) b.deferred
  | [], d, a, h, hD, _, _, _, _, _ => ⟨a, rfl, by simpa using h, by simpa using hD⟩
  | k :: ks, d, a, h, hD, hnd, hreg, hk, hcap, hdr => by
    rw [List.flatMap_cons, ← List.append_assoc] at hnd
    have hnk := (List.nodup_append.1 hnd).1
    obtain ⟨b, e1, h1, h2⟩ := accelThread_spec hT (cap := cap) hf h hnk hD (hreg k (by simp)) (hk k (by simp))
      (hcap k (by simp)) (fun r hr hrk => (List.nodup_append.1 hnk).2.2 r hr r
        ((hk k (by simp) r (hdr r hr)).1 hrk) rfl)
    obtain ⟨c, e2, h3, h4⟩ := accelThreads_spec hT hf ks (d ++ regs k)
      ⟨⟨b.st.R, fun g => a.st.lev g + b.st.lev g, a.st.total + b.st.total⟩, a.deferred ++ b.deferred⟩ h1 h2 hnd
      (fun k' hk' => hreg k' (by simp [hk'])) (fun k' hk' => hk k' (by simp [hk'])) (fun k' hk' => hcap k' (by simp [hk']))
      (fun r hr => (List.mem_append.1 hr).elim (hdr r) (hreg k (by simp) r))
    rw [List.flatMap_cons, ← List.append_assoc]
    refine ⟨c, ?_, h3, h4⟩
    unfold accelThreads
    rw [e1]; exact e2

/-! ### Deferred comparisons -/

theorem deferredNms_step (hT : T.Ok) (h32 : Rounding cfg.r32) (hn : 0 ≤ cfg.nms) (h : Q T cfg T.live l bad s)
    (hnd : l.Nodup) {c p : ι} (hc : T.live c) (hu : T.up c = some p) (hg : T.gr p = T.gr c + 1) :
    ∃ s', deferredNms cfg s c = some s' ∧ Q T cfg T.live l (fun r => bad r ∨ upBad T cfg c r) s' := by
  have hp := hT.up_live c hc p hu
  have hub : ∀ r, (upBad T cfg c r ↔ pairBad T cfg c p r) := by intro r; simp [upBad, hc, hu]
  unfold deferredNms
  rw [h.nst.par c hc (.inl rfl), hu]
  simp only [h.nst.var rfl p hp]
  by_cases hi : (s.R c).flag = .invalid ∧ (s.R p).flag = .invalid
  · rw [if_pos hi]
    exact ⟨s, rfl, (h.pair_none (c := c) (p := p) ((h.nst.invalid_iff hc).1 hi.1) ((h.nst.invalid_iff hp).1 hi.2)).congr
      fun r _ => by rw [hub]⟩
  · rw [if_neg hi]
    by_cases hv : 0 ≤ vval T cfg p
    · rw [if_pos hv]
      refine ⟨_, rfl, (h.pair hT hn hnd hc hp hc hp).congr fun r _ => ?_⟩
      rw [hub]; simp [pairBad, hn, hg, hv, vval_child hT h32 hc hu hg hv]
    · rw [if_neg hv]
      refine ⟨_, rfl, h.congr fun r _ => ?_⟩
      rw [hub]
      constructor
      · rintro (hb | hb)
        · exact hb
        · exact absurd hb.2.2.2.1 hv
      · exact .inl

theorem deferredNms_fold (hT : T.Ok) (h32 : Rounding cfg.r32) (hn : 0 ≤ cfg.nms) (hnd : l.Nodup) :
    ∀ (cs : List ι) {bad : ι → Prop} {s : RSt ι}, Q T cfg T.live l bad s →
      (∀ c ∈ cs, T.live c ∧ ∃ p, T.up c = some p ∧ T.gr p = T.gr c + 1) →
      ∃ s', cs.foldlM (deferredNms cfg) s = some s' ∧
        Q T cfg T.live l (fun r => bad r ∨ ∃ c ∈ cs, upBad T cfg c r) s'
  | [], _, s, h, _ => ⟨s, rfl, h.congr fun r _ => by simp⟩
  | c :: cs, _, _, h, hr => by
    obtain ⟨hc, p, hu, hg⟩ := hr c (by simp)
    obtain ⟨s1, e1, h1⟩ := deferredNms_step hT h32 hn h hnd hc hu hg
    obtain ⟨s2, e2, h2⟩ := deferredNms_fold hT h32 hn hnd cs h1 (fun c hc => hr c (by simp [hc]))
    refine ⟨s2, by rw [List.foldlM_cons, e1]; exact e2, h2.congr fun r _ => ?_⟩
    simp [or_assoc]

/-- **Selection with four threads.** -/
theorem selectAccel_spec (hT : T.Ok) (h32 : Rounding cfg.r32) {pidx : ι → Nat} {fuel n : Nat} (hf : T.m ≤ fuel)
    {regs : Nat → List ι} {cap : Nat → Nat} (hnd : ((List.range n).flatMap regs).Nodup)
    (hreg : ∀ r ∈ (List.range n).flatMap regs, T.isReg r) (hall : ∀ r, T.live r → r ∈ (List.range n).flatMap regs)
    (hk : ∀ k < n, ∀ r, T.isReg r → (pidx r = k ↔ r ∈ regs k)) (hcap : ∀ k < n, (regs k).length ≤ cap k)
    {R : RForest ι} (hR : Shows T R)
    (hfresh : ∀ r, T.live r → (R r).flag = .unknown ∧ (R r).counted = false) :
    ∃ s, selectAccel cfg pidx fuel n cap regs R = some s ∧
      Q T cfg T.live ((List.range n).flatMap regs) (finalBad T cfg true) s := by
  obtain ⟨b, e1, h1, h2⟩ := accelThreads_spec (cfg := cfg) hT (pidx := pidx) (cap := cap) hf (List.range n) []
    ⟨⟨R, fun _ => 0, 0⟩, []⟩ (Q.start hR hfresh) ⟨by simp, by simp⟩ (by simpa using hnd)
    (fun k hk' x hx => hreg x (List.mem_flatMap.2 ⟨k, hk', hx⟩)) (fun k hk' => hk k (List.mem_range.1 hk'))
    (fun k hk' => hcap k (List.mem_range.1 hk')) (by simp)
  rw [List.nil_append] at h1 h2
  have h3 : Q T cfg T.live ((List.range n).flatMap regs) (accBad T cfg pidx ((List.range n).flatMap regs)) b.st :=
    h1.congr_dom (fun r hr => by simp only [hr, true_and, true_iff]; exact hall r hr) (fun r hr => hr)
  unfold selectAccel
  rw [e1]
  simp only
  by_cases hn : 0 ≤ cfg.nms
  · rw [if_pos hn]
    obtain ⟨s, e4, h4⟩ := deferredNms_fold hT h32 hn hnd b.deferred h3
      (fun c hc => ⟨(h2.sound c hc).1, (h2.sound c hc).2.2⟩)
    refine ⟨s, e4, h4.congr fun r _ => ?_⟩
    constructor
    · rintro (hb | ⟨_, c, hlc, p, hu, hb⟩)
      · exact .inl (.inl hb)
      · by_cases hpk : pidx p = pidx c
        · exact .inl (.inr ⟨c, hall c hlc, hlc, p, hu, hpk, hb⟩)
        · rcases h2.complete c (hall c hlc) hlc p hu hpk hb.2.1 with hD | ⟨hD1, hD2⟩
          · exact .inr ⟨c, hD, hlc, p, hu, hb⟩
          · rcases hb.2.2.2.2 with ⟨_, rfl⟩ | ⟨_, rfl⟩
            · exact .inl (.inl hD2)
            · exact .inl hD1
    · rintro ((hb | ⟨c, _, hlc, p, hu, _, hb⟩) | ⟨c, _, hc⟩)
      · exact .inl hb
      · exact .inr ⟨rfl, c, hlc, p, hu, hb⟩
      · exact .inr ⟨rfl, c, hc⟩
  · rw [if_neg hn]
    refine ⟨_, rfl, h3.congr fun r _ => ?_⟩
    constructor
    · rintro (hb | ⟨_, c, hlc, p, hu, hb⟩)
      · exact .inl hb
      · exact absurd hb.1 hn
    · rintro (hb | ⟨c, _, hlc, p, hu, _, hb⟩)
      · exact .inl hb
      · exact absurd hb.1 hn

end Verif.Recog
