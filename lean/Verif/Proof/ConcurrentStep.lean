import Verif.Proof.Concurrent

/-!
# Proof: what one step of one thread keeps
-/

namespace Verif.Recog

open Function (update)
open Relation (ReflTransGen)
open Verif.Connect (Forest Str Res RealPar)

variable {ι : Type} [DecidableEq ι] {T : Tree ι} {cfg : Cfg} {pidx : ι → Nat} {n : Nat} {regs : Nat → List ι}
  {R0 R : RForest ι} {two : Bool} {cap : Nat → Nat}

omit [DecidableEq ι] in
theorem settleAll_live {r : ι} (h : T.live r) : settleAll T cfg R0 r = settle T cfg r (R0 r) := by
  simp [settleAll, h]

omit [DecidableEq ι] in
theorem settleAll_not {r : ι} (h : ¬ T.live r) : settleAll T cfg R0 r = R0 r := by
  simp [settleAll, h]

omit [DecidableEq ι] in
theorem settle_flag {r : ι} {x : RNode ι} (h : x.flag ≠ .merged) : (settle T cfg r x).flag ≠ .merged := by
  unfold settle
  dsimp only
  split
  · simp
  · split
    · simp
    · exact h

omit [DecidableEq ι] in
theorem settleAll_shows (hT : T.Ok) (h : Shows T R0) : Shows T (settleAll T cfg R0) := by
  have hm : ∀ r, T.isReg r → ((settleAll T cfg R0 r).flag = .merged ↔ ¬ T.live r) := by
    intro r hr
    by_cases hl : T.live r
    · rw [settleAll_live hl]
      exact ⟨fun e => absurd e (settle_flag (h.flag_ne hT hl)), fun e => absurd hl e⟩
    · rw [settleAll_not hl]; exact h.merged r hr
  have hmt : ∀ r, (toForest (settleAll T cfg R0) r).merged = (toForest R0 r).merged := by
    intro r
    by_cases hl : T.live r
    · have := settle_flag (T := T) (cfg := cfg) (r := r) (h.flag_ne hT hl)
      simp only [toForest, settleAll_live hl, decide_eq_decide]
      exact ⟨fun e => absurd e this, fun e => absurd e (h.flag_ne hT hl)⟩
    · simp only [toForest, settleAll_not hl]
  have hpt : ∀ r, (toForest R0 r).merged = true →
      (toForest (settleAll T cfg R0) r).parent = (toForest R0 r).parent := by
    intro r hr
    have hl : ¬ T.live r := fun hl => by rw [h.live hT hl] at hr; simp at hr
    simp only [toForest, settleAll_not hl]
  have hpl : ∀ r, T.live r → (toForest (settleAll T cfg R0) r).parent = T.up r := by
    intro r hl; simp only [toForest, settleAll_live hl]; rfl
  have hpn : ∀ r, ¬ T.live r → (toForest (settleAll T cfg R0) r).parent = (toForest R0 r).parent := by
    intro r hl; simp only [toForest, settleAll_not hl]
  have hg : ∀ r, (settleAll T cfg R0 r).gray = T.gr r := by
    intro r
    by_cases hl : T.live r
    · rw [settleAll_live hl]; exact h.gray r
    · rw [settleAll_not hl]; exact h.gray r
  refine ⟨hg, ?_, hm, ?_, ?_⟩
  · intro r
    by_cases hl : T.live r
    · rw [settleAll_live hl]; exact h.size r
    · rw [settleAll_not hl]; exact h.size r
  · refine ⟨fun r => hg r, h.str.gray_lt, fun r hr r' hp => ?_, fun r r' hp => ?_, fun r hr hme r' hp => ?_,
      fun r hr hme => ?_, fun r hr => ?_⟩
    · by_cases hl : T.live r
      · rw [hpl r hl] at hp; exact hT.reg _ (hT.up_live r hl r' hp)
      · rw [hpn r hl] at hp; exact h.str.par_reg r hr r' hp
    · by_cases hl : T.live r
      · exact hT.reg r hl
      · rw [hpn r hl] at hp; exact h.str.reg_par r r' hp
    · have hl : T.live r := by
        by_contra hl
        have := (hm r hr).2 hl
        simp [toForest, this] at hme
      rw [hpl r hl] at hp; exact hT.up_gray r hl r' hp
    · rw [hmt] at hme
      obtain ⟨r', h1, h2⟩ := h.str.merged_eq r hr hme
      exact ⟨r', by rw [hpt r hme]; exact h1, h2⟩
    · obtain ⟨j, hj, x, hx⟩ := h.str.res r hr
      exact ⟨j, hj, x, Connect.res_congr hmt hpt hx⟩
  · intro r hl
    have := hpl r hl
    cases hu : T.up r with
    | none => rw [hu] at this; exact .none this
    | some z =>
      rw [hu] at this
      refine .some z z 0 this ⟨?_, rfl⟩
      rw [hmt]; exact h.live hT (hT.up_live r hl z hu)

theorem solo_snoc (k : Nat) (d : List ι) (r : ι) :
    solo T cfg pidx cap R0 k (d ++ [r]) = (solo T cfg pidx cap R0 k d).bind
      fun a => accelVisit cfg pidx k (cap k) a r := by
  unfold solo
  rw [List.foldlM_append]
  refine congrArg _ (funext fun a => ?_)
  simp

theorem solo_prefix (k : Nat) {d e : List ι} {a : AccSt ι} (h : solo T cfg pidx cap R0 k (d ++ e) = some a) :
    ∃ b, solo T cfg pidx cap R0 k d = some b := by
  unfold solo at h ⊢
  rw [List.foldlM_append] at h
  cases hb : List.foldlM (accelVisit cfg pidx k (cap k)) _ d with
  | none => rw [hb] at h; exact absurd h (by simp)
  | some b => exact ⟨b, rfl⟩

theorem setParent_self_eq (r : ι) (p : Option ι) : setParent R r p r = { R r with parent := p } := by
  simp [setParent]

theorem setParent_of_ne {x r : ι} (h : x ≠ r) (p : Option ι) : setParent R r p x = R x := by
  simp [setParent, Function.update_of_ne h]

/-- Shortening a link keeps `Base`. -/
theorem Base.setParent {d rest : List ι} (h : Base T cfg R0 R d rest) (s : ι) :
    Base T cfg R0 (Recog.setParent R s (T.up s)) d rest := by
  refine ⟨fun x hx hl => ?_, fun x hx hl => ?_⟩
  · by_cases e : x = s
    · subst e; rw [setParent_self_eq, h.settled x hx hl]; rfl
    · rw [setParent_of_ne e]; exact h.settled x hx hl
  · by_cases e : x = s
    · subst e; rw [setParent_self_eq]
      right
      rcases h.raw x hx hl with e | e <;> rw [e]
    · rw [setParent_of_ne e]; exact h.raw x hx hl

/-- What one step of thread `k` does. -/
theorem step_good (S : Setup T pidx n regs R0) {k : Nat} (hk : k < n)
    (hsolo : two = true → ∃ a, solo T cfg pidx cap R0 k (regs k) = some a) (hR : Shows T R) {t : Thread ι}
    (hg : Good T cfg pidx two cap regs R0 k R t) :
    stepThread cfg pidx two cap regs k R t ≠ .crash ∧
    ∀ R' t', stepThread cfg pidx two cap regs k R t = .next (R', t') →
      Shows T R' ∧ Good T cfg pidx two cap regs R0 k R' t' ∧ Frame T pidx k R R' := by
  have hT := S.ok
  have own : ∀ x ∈ regs k, T.isReg x ∧ pidx x = k := fun x hx => (S.mem k hk x).1 hx
  obtain ⟨todo, pc, lev, total, deferred⟩ := t
  unfold Good at hg
  unfold stepThread
  cases pc with
  | next =>
    obtain ⟨h0, d, e, hb⟩ := hg
    dsimp only at h0 e hb ⊢
    cases todo with
    | nil =>
      dsimp only
      cases two with
      | false => simp
      | true =>
        simp only [if_true, ne_eq, reduceCtorEq, not_false_eq_true, true_and, Out.next.injEq, Prod.mk.injEq]
        rintro R' t' ⟨rfl, rfl⟩
        refine ⟨hR, ?_, .refl⟩
        obtain ⟨h1, h2, h3⟩ := h0
        dsimp only at h1 h2 h3
        subst h1 h2 h3
        rw [List.append_nil] at e
        refine ⟨rfl, [], _, rfl, rfl, rfl, rfl, rfl, settleAll_shows hT S.shows_, fun x hx hl => ?_⟩
        rw [e] at hx
        rw [hb.settled x hx hl]; exact ⟨(settleAll_live hl).symm, rfl⟩
    | cons r rest =>
      dsimp only
      have hr : r ∈ regs k := by rw [e]; simp
      split
      · rename_i hm
        simp only [ne_eq, reduceCtorEq, not_false_eq_true, true_and, Out.next.injEq, Prod.mk.injEq]
        rintro R' t' ⟨rfl, rfl⟩
        have hl : T.live r := by
          by_contra hl; exact hm ((hR.merged r (own r hr).1).2 hl)
        refine ⟨hR, ⟨h0, d, e, ⟨hb.settled, fun x hx => hb.raw x (List.mem_cons_of_mem _ hx)⟩,
          ⟨hl, .refl, .inl rfl⟩, .inl ⟨rfl, hb.raw r (by simp) hl⟩, .inl rfl⟩, .refl⟩
      · rename_i hm
        simp only [ne_eq, reduceCtorEq, not_false_eq_true, true_and, Out.next.injEq, Prod.mk.injEq]
        rintro R' t' ⟨rfl, rfl⟩
        have hl : ¬ T.live r := (hR.merged r (own r hr).1).1 (not_not.1 hm)
        refine ⟨hR, ⟨h0, d ++ [r], by rw [e]; simp, ⟨fun x hx hlx => ?_,
          fun x hx => hb.raw x (List.mem_cons_of_mem _ hx)⟩⟩, .refl⟩
        rcases List.mem_append.1 hx with hx | hx
        · exact hb.settled x hx hlx
        · rw [List.mem_singleton] at hx; subst hx; exact absurd hlx hl
  | load r s x =>
    obtain ⟨h0, d, e, hb, ha, h1, h2⟩ := hg
    dsimp only at h0 e hb ⊢
    simp only [ne_eq, reduceCtorEq, not_false_eq_true, true_and, Out.next.injEq, Prod.mk.injEq]
    rintro R' t' ⟨rfl, rfl⟩
    refine ⟨hR, ⟨h0, d, e, hb, ha, h1, ?_⟩, .refl⟩
    have hs := ha.live_s hT
    rcases h2 with rfl | ⟨j, z, h3, h4, h5⟩
    · have hp := hR.par x hs
      generalize hu : T.up x = o at hp
      cases hp with
      | none hp => have hp' : (R x).parent = none := hp; rw [hp']; exact hu
      | some y z j hp hr =>
        have hp' : (R x).parent = some y := hp
        rw [hp']
        obtain ⟨j', hj', z', hz'⟩ := hR.str.res y (hR.str.par_reg x (hT.reg x hs) y hp)
        obtain ⟨ej, _⟩ := Res.det hr hz'
        exact ⟨j, z, by omega, hu, hr⟩
    · obtain ⟨_, y, h6, h7⟩ := h5
      have h6' : (R x).parent = some y := h6
      rw [h6']
      exact ⟨j, z, by omega, h4, h7⟩
  | look r s q =>
    obtain ⟨h0, d, e, hb, ha, h1, h2⟩ := hg
    dsimp only at h0 e hb ⊢
    cases q with
    | none =>
      simp only [ne_eq, reduceCtorEq, not_false_eq_true, true_and, Out.next.injEq, Prod.mk.injEq]
      rintro R' t' ⟨rfl, rfl⟩
      exact ⟨hR, ⟨h0, d, e, hb, ha, h1, h2.symm⟩, .refl⟩
    | some y =>
      obtain ⟨j, z, h3, h4, h5⟩ := h2
      dsimp only
      split
      · rename_i hm
        simp only [ne_eq, reduceCtorEq, not_false_eq_true, true_and, Out.next.injEq, Prod.mk.injEq]
        rintro R' t' ⟨rfl, rfl⟩
        refine ⟨hR, ⟨h0, d, e, hb, ha, h1, .inr ?_⟩, .refl⟩
        cases j with
        | zero => exfalso; have := h5.1; simp [toForest, hm] at this
        | succ j => exact ⟨j, z, by omega, h4, h5⟩
      · rename_i hm
        simp only [ne_eq, reduceCtorEq, not_false_eq_true, true_and, Out.next.injEq, Prod.mk.injEq]
        rintro R' t' ⟨rfl, rfl⟩
        refine ⟨hR, ⟨h0, d, e, hb, ha, h1, ?_⟩, .refl⟩
        cases j with
        | zero => rw [h4, h5.2]
        | succ j => exfalso; have := h5.1; simp [toForest, hm] at this
  | store r s q =>
    obtain ⟨h0, d, e, hb, ha, h1, h2⟩ := hg
    dsimp only at h0 e hb ⊢
    simp only [ne_eq, reduceCtorEq, not_false_eq_true, true_and, Out.next.injEq, Prod.mk.injEq]
    rintro R' t' ⟨rfl, rfl⟩
    subst h2
    have hs := ha.live_s hT
    have hr : r ∈ regs k := by rw [e]; simp
    by_cases hc : s = r ∨ pidx s = k
    · rw [if_pos hc]
      have hsk : pidx s = k := by
        rcases hc with rfl | h
        · exact (own s hr).2
        · exact h
      refine ⟨(shows_setParent hR hT hs).1, ⟨h0, d, e, hb.setParent s, ha, ?_, rfl⟩, frame_setParent hs hsk _⟩
      by_cases hsr : r = s
      · subst hsr; rw [setParent_self_eq]
        rcases h1 with ⟨_, h1⟩ | h1
        · rcases h1 with e | e <;> rw [e]
        · rw [h1]
      · rw [setParent_of_ne hsr]
        rcases h1 with ⟨h1, _⟩ | h1
        · exact absurd h1.symm hsr
        · exact h1
    · rw [if_neg hc]
      rw [not_or] at hc
      refine ⟨hR, ⟨h0, d, e, hb, ha, ?_, rfl⟩, .refl⟩
      rcases h1 with ⟨h1, _⟩ | h1
      · exact absurd h1 hc.1
      · exact h1
  | cond r s q =>
    obtain ⟨h0, d, e, hb, ha, h1, h2⟩ := hg
    dsimp only at h0 e hb ⊢
    have hs := ha.live_s hT
    cases q with
    | none =>
      simp only [ne_eq, reduceCtorEq, not_false_eq_true, true_and, Out.next.injEq, Prod.mk.injEq]
      rintro R' t' ⟨rfl, rfl⟩
      refine ⟨hR, ⟨h0, d, e, hb, ha.live, ⟨ha.anc, ha.within, fun p hp => ?_⟩, h1, h2⟩, .refl⟩
      rw [← h2] at hp; simp at hp
    | some p =>
      dsimp only
      rw [hR.gray, hR.gray]
      split
      · rename_i hle
        simp only [ne_eq, reduceCtorEq, not_false_eq_true, true_and, Out.next.injEq, Prod.mk.injEq]
        rintro R' t' ⟨rfl, rfl⟩
        exact ⟨hR, ⟨h0, d, e, hb, ⟨ha.live, .tail ha.anc h2.symm, .inr hle⟩, .inr h1, .inl rfl⟩, .refl⟩
      · rename_i hle
        simp only [ne_eq, reduceCtorEq, not_false_eq_true, true_and, Out.next.injEq, Prod.mk.injEq]
        rintro R' t' ⟨rfl, rfl⟩
        refine ⟨hR, ⟨h0, d, e, hb, ha.live, ⟨ha.anc, ha.within, fun p' hp => ?_⟩, h1, h2⟩, .refl⟩
        rw [← h2] at hp; cases hp; omega
  | value r s q =>
    obtain ⟨h0, d, e, hb, hl, hw, h1, h2⟩ := hg
    dsimp only at h0 e hb ⊢
    simp only [ne_eq, reduceCtorEq, not_false_eq_true, true_and, Out.next.injEq, Prod.mk.injEq]
    rintro R' t' ⟨rfl, rfl⟩
    have hr : r ∈ regs k := by rw [e]; simp
    have es := hw.unique hT hl (topOf_wid hT (n := 256) hl (by omega))
    have hv : (if q.isSome ∨ ((R s).gray : Int) = (R r).gray + cfg.delta then
        ratio32 cfg (R s).size (R r).size else -1) = vval T cfg r := by
      unfold vval
      simp only [← es, h2, hR.gray, hR.size]
    rw [hv]
    have hnd := S.nodup k hk
    rw [e] at hnd
    have hne : ∀ x ∈ d ++ todo, x ≠ r := by
      rintro x hx rfl
      have := (List.nodup_middle.1 hnd)
      exact (List.nodup_cons.1 this).1 hx
    refine ⟨hR.setVar r _, ⟨h0, d, e, hb.congr fun x hx _ => ?_, hl, ?_⟩, frame_setVar hl (own r hr).2 _⟩
    · simp [setVar, Function.update_of_ne (hne x hx)]
    · simp [setVar, h1]
  | judge r =>
    obtain ⟨h0, d, e, hb, hl, h1⟩ := hg
    dsimp only at h0 e hb ⊢
    simp only [ne_eq, reduceCtorEq, not_false_eq_true, true_and, Out.next.injEq, Prod.mk.injEq]
    rintro R' t' ⟨rfl, rfl⟩
    have hr : r ∈ regs k := by rw [e]; simp
    have hnd := S.nodup k hk
    rw [e] at hnd
    have hne : ∀ x ∈ d ++ todo, x ≠ r := by
      rintro x hx rfl
      have := (List.nodup_middle.1 hnd)
      exact (List.nodup_cons.1 this).1 hx
    have fin : ∀ R', Frame T pidx k R R' → Shows T R' → (∀ x, x ≠ r → R' x = R x) →
        R' r = settle T cfg r (R0 r) →
        Shows T R' ∧ Good T cfg pidx two cap regs R0 k R' ⟨todo, .next, lev, total, deferred⟩ ∧ Frame T pidx k R R' := by
      intro R' hf hs hx hrr
      refine ⟨hs, ⟨h0, d ++ [r], by rw [e]; simp, ⟨fun x hm hlx => ?_, fun x hm hlx => ?_⟩⟩, hf⟩
      · rcases List.mem_append.1 hm with hm | hm
        · rw [hx x (hne x (List.mem_append_left _ hm))]; exact hb.settled x hm hlx
        · rw [List.mem_singleton] at hm; subst hm; exact hrr
      · rw [hx x (hne x (List.mem_append_right _ hm))]; exact hb.raw x hm hlx
    have hfl : ∀ x, x ≠ r → setFlag R r .invalid x = R x := fun x hx => by simp [setFlag, Function.update_of_ne hx]
    have hbs : badSize cfg (R r) = badSize cfg { R0 r with parent := T.up r } := by rw [h1]; rfl
    have hva : (R r).var = vval T cfg r := by rw [h1]
    rw [hbs, hva]
    split
    · rename_i hv
      refine fin _ (frame_setFlag hl (own r hr).2 _) (hR.setFlag hT hl (by decide)) hfl ?_
      simp [setFlag, settle, h1, hv]
    · rename_i hv
      split
      · rename_i hbb
        refine fin _ (frame_setFlag hl (own r hr).2 _) (hR.setFlag hT hl (by decide)) hfl ?_
        simp [setFlag, settle, h1, hv, hbb]
      · rename_i hbb
        refine fin _ .refl hR (fun _ _ => rfl) ?_
        simp [settle, h1, hv, hbb]
  | second =>
    obtain ⟨h0, d, a, e, h1, h2, h3, h4, h5, h6⟩ := hg
    dsimp only at h0 e h2 h3 h4 ⊢
    cases todo with
    | nil => simp
    | cons r rest =>
      dsimp only
      have hr : r ∈ regs k := by rw [e]; simp
      have hsim : Sim T pidx k ⟨⟨R, lev, total⟩, deferred⟩ a :=
        ⟨h2.symm, h3.symm, h4.symm, fun x hl hx => (h6 x ((S.mem k hk x).2 ⟨hT.reg x hl, hx⟩) hl).1, hR, h5⟩
      obtain ⟨b0, hb0⟩ := hsolo h0
      rw [e, show d ++ r :: rest = (d ++ [r]) ++ rest by simp] at hb0
      obtain ⟨b, hb⟩ := solo_prefix k hb0
      have hb' := hb
      rw [solo_snoc, h1] at hb
      have hb : accelVisit cfg pidx k (cap k) a r = some b := hb
      rcases hsim.visit (cfg := cfg) (c := cap k) hT (own r hr).1 (own r hr).2 (fun hl => (h6 r hr hl).2) with
        ⟨_, h⟩ | ⟨a', b', e1, e2, h7, h8⟩
      · rw [hb] at h; simp at h
      · rw [hb] at e2; cases e2
        simp only [e1, ne_eq, reduceCtorEq, not_false_eq_true, true_and, Out.next.injEq, Prod.mk.injEq]
        rintro R' t' ⟨rfl, rfl⟩
        refine ⟨h7.left, ⟨h0, d ++ [r], b, by rw [e]; simp, hb', h7.lev.symm, h7.total.symm, h7.deferred.symm,
          h7.right, fun x hx hl => ⟨h7.own x hl (own x hx).2, ?_⟩⟩, h8⟩
        rw [accelVisit_parent e1]; exact (h6 x hx hl).2

end Verif.Recog
