import Verif.Proof.RecogSelect
import Mathlib.Algebra.Order.Field.Rat
import Mathlib.Tactic.Linarith
import Verif.Spec.Stable

/-!
# Proof: suppression of less stable regions

Whatever the order in which the pairs of a region and its parent are compared, and however the work is
split, the same regions end as candidates and the counters count them.
-/

namespace Verif.Recog

open Function (update)
open Verif.Spec (Rounding)

variable {ι : Type} [DecidableEq ι] {T : Tree ι} {cfg : Cfg} {uv : Bool} {dom : ι → Prop} {l : List ι}
  {bad : ι → Prop} {s : RSt ι}

/-- Comparing `c` with its parent `p` suppresses `r`. -/
def hit (T : Tree ι) (cfg : Cfg) (c p r : ι) : Prop :=
  (cfg.nms < cfg.r32 (vval T cfg p - vval T cfg c) ∧ r = p) ∨
    (cfg.nms < -cfg.r32 (vval T cfg p - vval T cfg c) ∧ r = c)

/-- The pair `c`, `p` is compared and suppresses `r`. -/
def pairBad (T : Tree ι) (cfg : Cfg) (c p r : ι) : Prop :=
  0 ≤ cfg.nms ∧ T.gr p = T.gr c + 1 ∧ 0 ≤ vval T cfg c ∧ 0 ≤ vval T cfg p ∧ hit T cfg c p r

/-- The pair of `c` and its parent suppresses `r`. -/
def upBad (T : Tree ι) (cfg : Cfg) (c r : ι) : Prop := T.live c ∧ ∃ p, T.up c = some p ∧ pairBad T cfg c p r

omit [DecidableEq ι] in
theorem NSt.unknown_iff (h : NSt T cfg uv dom l bad s) {r : ι} (hr : dom r) :
    (s.R r).flag = .unknown ↔ ¬ bad r := by
  rcases h.flag r hr with ⟨e, hb⟩ | ⟨e, hb⟩
  · simp [e, hb]
  · simp [e, hb]

omit [DecidableEq ι] in
theorem NSt.invalid_iff (h : NSt T cfg uv dom l bad s) {r : ι} (hr : dom r) :
    (s.R r).flag = .invalid ↔ bad r := by
  rcases h.flag r hr with ⟨e, hb⟩ | ⟨e, hb⟩
  · simp [e, hb]
  · simp [e, hb]

/-! ### One thread -/

theorem serialNms_step (hT : T.Ok) (hn : 0 ≤ cfg.nms) (h : NSt T cfg true T.live l bad s) (hnd : l.Nodup)
    (hl : ∀ r, T.live r → r ∈ l) {c : ι} (hc : T.isReg c) :
    NSt T cfg true T.live l (fun r => bad r ∨ upBad T cfg c r) (serialNms cfg s c) := by
  unfold serialNms
  by_cases hm : (s.R c).flag = .merged
  · simp only [hm, if_true]
    have : ¬ T.live c := (h.shows_.merged c hc).1 hm
    exact h.congr fun r _ => by simp [upBad, this]
  · have hlc : T.live c := not_not.1 fun hn => hm ((h.shows_.merged c hc).2 hn)
    simp only [hm, if_false]
    rw [h.par c hlc (.inl rfl)]
    cases hu : T.up c with
    | none => exact h.congr fun r _ => by simp [upBad, hu]
    | some p =>
      have hlp := hT.up_live c hlc p hu
      simp only [h.var rfl c hlc, h.var rfl p hlp, h.shows_.gray]
      have hub : ∀ r, upBad T cfg c r ↔ pairBad T cfg c p r := by
        intro r; simp [upBad, hlc, hu]
      by_cases hcond : 0 ≤ vval T cfg c ∧ 0 ≤ vval T cfg p ∧ T.gr p = T.gr c + 1
      · rw [if_pos hcond]
        have hpb : ∀ r, pairBad T cfg c p r ↔ hit T cfg c p r := by
          intro r; simp [pairBad, hn, hcond]
        by_cases h1 : cfg.nms < cfg.r32 (vval T cfg p - vval T cfg c)
        · rw [if_pos h1]
          have h2 : ¬ cfg.nms < -cfg.r32 (vval T cfg p - vval T cfg c) := by
            intro h2; linarith
          have hh : ∀ r, hit T cfg c p r ↔ r = p := by intro r; simp [hit, h1, h2]
          by_cases hf : (s.R p).flag = .invalid
          · rw [if_neg (by simp [hf])]
            refine h.congr fun r _ => ?_
            rw [hub, hpb, hh]
            constructor
            · rintro (hb | rfl)
              · exact hb
              · exact (h.invalid_iff hlp).1 hf
            · exact .inl
          · rw [if_pos hf, ← h.shows_.gray p]
            refine (h.mark hT hnd hlp (hl p hlp) ?_).congr fun r _ => by rw [hub, hpb, hh]
            rcases h.flag p hlp with e | e
            · exact e.1
            · exact absurd e.1 hf
        · rw [if_neg h1]
          by_cases h2 : cfg.nms < -cfg.r32 (vval T cfg p - vval T cfg c)
          · rw [if_pos h2]
            have hh : ∀ r, hit T cfg c p r ↔ r = c := by intro r; simp [hit, h1, h2]
            by_cases hf : (s.R c).flag = .invalid
            · rw [if_neg (by simp [hf])]
              refine h.congr fun r _ => ?_
              rw [hub, hpb, hh]
              constructor
              · rintro (hb | rfl)
                · exact hb
                · exact (h.invalid_iff hlc).1 hf
              · exact .inl
            · rw [if_pos hf, ← h.shows_.gray c]
              refine (h.mark hT hnd hlc (hl c hlc) ?_).congr fun r _ => by rw [hub, hpb, hh]
              rcases h.flag c hlc with e | e
              · exact e.1
              · exact absurd e.1 hf
          · rw [if_neg h2]
            exact h.congr fun r _ => by rw [hub, hpb]; simp [hit, h1, h2]
      · rw [if_neg hcond]
        refine h.congr fun r _ => ?_
        rw [hub]
        constructor
        · rintro (hb | hb)
          · exact hb
          · exact absurd ⟨hb.2.2.1, hb.2.2.2.1, hb.2.1⟩ hcond
        · exact .inl

theorem serialNms_fold (hT : T.Ok) (hn : 0 ≤ cfg.nms) (hnd : l.Nodup) (hl : ∀ r, T.live r → r ∈ l) :
    ∀ (cs : List ι) {bad : ι → Prop} {s : RSt ι}, NSt T cfg true T.live l bad s → (∀ c ∈ cs, T.isReg c) →
      NSt T cfg true T.live l (fun r => bad r ∨ ∃ c ∈ cs, upBad T cfg c r) (cs.foldl (serialNms cfg) s)
  | [], _, _, h, _ => h.congr fun r _ => by simp
  | c :: cs, _, _, h, hr => by
    refine (serialNms_fold hT hn hnd hl cs (serialNms_step hT hn h hnd hl (hr c (by simp)))
      (fun c hc => hr c (by simp [hc]))).congr fun r _ => ?_
    simp [or_assoc]

/-- What must have happened for a live region to be dropped. -/
def finalBad (T : Tree ι) (cfg : Cfg) (uv : Bool) (r : ι) : Prop :=
  ¬ pass1 T cfg uv r ∨ (uv = true ∧ ∃ c, upBad T cfg c r)

/-- **Selection with one thread.** -/
theorem selectSerial_spec (hT : T.Ok) {fuel : Nat} (hf : T.m ≤ fuel) {order : List ι} (hnd : order.Nodup)
    (hreg : ∀ r ∈ order, T.isReg r) (hall : ∀ r, T.live r → r ∈ order) {R : RForest ι} (hR : Shows T R)
    (hfresh : ∀ r, T.live r → (R r).flag = .unknown ∧ (R r).counted = false) :
    ∃ s, selectSerial cfg fuel order R = some s ∧
      NSt T cfg (decide (0 < cfg.delta)) T.live order (finalBad T cfg (decide (0 < cfg.delta))) s := by
  obtain ⟨s1, e1, h1⟩ := foldlM_inv (f := serialVisit cfg fuel) (s0 := ⟨R, fun _ => 0, 0⟩)
    (P := fun l s => First T cfg (decide (0 < cfg.delta)) l s) hnd
    ⟨⟨hR, fun r hr => absurd hr.2 (by simp), fun _ r hr => absurd hr.2 (by simp), fun r hr => absurd hr.2 (by simp),
      fun g => by simp, by simp⟩, fun r hr _ => (hfresh r hr).1, fun r hr => (hfresh r hr).2⟩
    (fun l s x h hx hxl _ => serialVisit_first hT hf h (hreg x hx) hxl)
  unfold selectSerial
  rw [e1]
  have h2 : NSt T cfg (decide (0 < cfg.delta)) T.live order
      (fun r => ¬ pass1 T cfg (decide (0 < cfg.delta)) r) s1 :=
    ⟨h1.nst.shows_, fun r hr => h1.nst.par r ⟨hr, hall r hr⟩, fun e r hr => h1.nst.var e r ⟨hr, hall r hr⟩,
      fun r hr => h1.nst.flag r ⟨hr, hall r hr⟩, h1.nst.lev, h1.nst.total⟩
  refine ⟨_, rfl, ?_⟩
  by_cases hd : 0 < cfg.delta ∧ 0 ≤ cfg.nms
  · rw [if_pos hd]
    have e : decide (0 < cfg.delta) = true := by simp [hd.1]
    rw [e] at h2 ⊢
    refine (serialNms_fold hT hd.2 hnd hall order h2 hreg).congr fun r _ => ?_
    unfold finalBad
    refine or_congr Iff.rfl ?_
    constructor
    · rintro ⟨_, c, hc⟩; exact ⟨c, hall c hc.1, hc⟩
    · rintro ⟨c, _, hc⟩; exact ⟨rfl, c, hc⟩
  · rw [if_neg hd]
    refine h2.congr fun r _ => ?_
    unfold finalBad
    constructor
    · rintro (hb | ⟨e, c, hc⟩)
      · exact hb
      · obtain ⟨_, p, _, hb⟩ := hc
        exact absurd ⟨by simpa using e, hb.1⟩ hd
    · exact .inl

/-! ### Several threads -/

/-- State of the parallel code: as `NSt`, and a candidate is marked as counted if and only if it is. -/
structure Q (T : Tree ι) (cfg : Cfg) (dom : ι → Prop) (l : List ι) (bad : ι → Prop) (s : RSt ι) : Prop where
  nst : NSt T cfg true dom l bad s
  cnt : ∀ r, T.live r → (s.R r).flag = .unknown → ((s.R r).counted = true ↔ r ∈ l)
  fresh : ∀ r, T.live r → ¬ dom r → (s.R r).flag = .unknown

theorem Q.congr (h : Q T cfg dom l bad s) {bad' : ι → Prop} (hb : ∀ x, dom x → (bad' x ↔ bad x)) :
    Q T cfg dom l bad' s := ⟨h.nst.congr hb, h.cnt, h.fresh⟩

omit [DecidableEq ι] in
theorem Q.congr_dom (h : Q T cfg dom l bad s) {dom' : ι → Prop} (hd : ∀ x, T.live x → (dom' x ↔ dom x))
    (hl' : ∀ x, dom' x → T.live x) : Q T cfg dom' l bad s := by
  have hd' : ∀ x, dom' x → dom x := fun x hx => (hd x (hl' x hx)).1 hx
  exact ⟨⟨h.nst.shows_, fun r hr => h.nst.par r (hd' r hr), fun e r hr => h.nst.var e r (hd' r hr),
    fun r hr => h.nst.flag r (hd' r hr), h.nst.lev, h.nst.total⟩, h.cnt,
    fun r hr hn => h.fresh r hr (fun hx => hn ((hd r hr).2 hx))⟩

/-- A region is valued and judged. -/
theorem Q.judge (hT : T.Ok) {pidx : ι → Nat} {k fuel : Nat} (hf : T.m ≤ fuel) {d : List ι}
    (h : Q T cfg (fun r => T.live r ∧ r ∈ d) l bad s) {x : ι} (hx : x ∉ d) (hxl : x ∉ l) (hreg : T.isReg x)
    (hb : T.live x → (bad x ↔ ¬ pass1 T cfg true x)) :
    ∃ R', workerVisit cfg pidx k fuel s.R x = some R' ∧
      Q T cfg (fun r => T.live r ∧ r ∈ d ++ [x]) l bad { s with R := R' } := by
  unfold workerVisit
  by_cases hlx : T.live x
  · have hun := h.fresh x hlx (fun hd => hx hd.2)
    rw [if_pos (h.nst.shows_.flag_ne hT hlx)]
    obtain ⟨R1, e1, hv⟩ := calcVar_spec hT (cfg := cfg) (own := fun y => pidx y == k) hf h.nst.shows_ hlx
    rw [e1]
    simp only [hv.var]
    have hbad := badSize_iff (T := T) (cfg := cfg) (x := R1 x) (r := x) (hv.shows_.size x) (hv.shows_.par_none hlx)
    have hin : ∀ r, r ∈ d ++ [x] → r = x ∨ (r ≠ x ∧ r ∈ d) := by
      intro r hr
      by_cases e : r = x
      · exact .inl e
      · right; refine ⟨e, ?_⟩; simpa [e] using hr
    have key : ∀ R', Shows T R' → (∀ r, (R' r).parent = (R1 r).parent ∧ (R' r).var = (R1 r).var ∧
        (R' r).counted = (R1 r).counted) → (∀ r, r ≠ x → (R' r).flag = (R1 r).flag) →
        (((R' x).flag = .unknown ∧ ¬ bad x) ∨ ((R' x).flag = .invalid ∧ bad x)) →
        Q T cfg (fun r => T.live r ∧ r ∈ d ++ [x]) l bad { s with R := R' } := by
      intro R' hsh hsame hfl hfx
      refine ⟨⟨hsh, ?_, ?_, ?_, ?_, ?_⟩, ?_, ?_⟩
      · rintro r ⟨hr, hm⟩ _
        show (R' r).parent = _
        rw [(hsame r).1]
        rcases hin r hm with e | ⟨_, hm⟩
        · subst e; exact hv.par_self
        · rcases hv.par r with e | e
          · rw [e]; exact h.nst.par r ⟨hr, hm⟩ (.inl rfl)
          · exact e
      · rintro _ r ⟨hr, hm⟩
        show (R' r).var = _
        rw [(hsame r).2.1]
        rcases hin r hm with e | ⟨e, hm⟩
        · subst e; exact hv.var
        · rw [hv.var_ne r e]; exact h.nst.var rfl r ⟨hr, hm⟩
      · rintro r ⟨hr, hm⟩
        show ((R' r).flag = _ ∧ _) ∨ ((R' r).flag = _ ∧ _)
        rcases hin r hm with e | ⟨e, hm⟩
        · subst e; exact hfx
        · rw [hfl r e, hv.flag]; exact h.nst.flag r ⟨hr, hm⟩
      · intro g
        show s.lev g = _
        rw [h.nst.lev]
        congr 1
        refine List.countP_congr fun r hr => ?_
        have : r ≠ x := by rintro rfl; exact hxl hr
        simp [unk, hfl r this, hv.flag, hsh.gray, h.nst.shows_.gray]
      · show s.total = _
        rw [h.nst.total]
        congr 1
        refine List.countP_congr fun r hr => ?_
        have : r ≠ x := by rintro rfl; exact hxl hr
        simp [cand, hfl r this, hv.flag]
      · intro r hr hu
        show (R' r).counted = true ↔ _
        rw [(hsame r).2.2, hv.counted]
        by_cases e : r = x
        · subst e; exact h.cnt r hr hun
        · refine h.cnt r hr ?_
          have : (R' r).flag = .unknown := hu
          rwa [hfl r e, hv.flag] at this
      · intro r hr hn
        have hrx : r ≠ x := by rintro rfl; exact hn ⟨hr, by simp⟩
        show (R' r).flag = _
        rw [hfl r hrx, hv.flag]
        exact h.fresh r hr fun hd => hn ⟨hr, by simp [hd.2]⟩
    have hrej : bad x → Q T cfg (fun r => T.live r ∧ r ∈ d ++ [x]) l bad { s with R := setFlag R1 x .invalid } :=
      fun hbx => key _ (hv.shows_.setFlag hT hlx (by decide)) (fun r => (setFlag_rest R1 x r .invalid).2)
        (fun r hr => setFlag_flag_ne _ _ hr) (.inr ⟨setFlag_self _ _ _, hbx⟩)
    by_cases hs : cfg.stable < vval T cfg x
    · rw [if_pos hs]
      exact ⟨_, rfl, hrej ((hb hlx).2 fun hp => absurd hs (not_lt.2 (hp.1 rfl)))⟩
    · rw [if_neg hs]
      by_cases hz : badSize cfg (R1 x) = true
      · rw [if_pos hz]
        exact ⟨_, rfl, hrej ((hb hlx).2 fun hp => hbad.1 hz hp.2)⟩
      · rw [if_neg hz]
        refine ⟨_, rfl, key R1 hv.shows_ (fun _ => ⟨rfl, rfl, rfl⟩) (fun _ _ => rfl) (.inl ⟨by rw [hv.flag, hun], ?_⟩)⟩
        rw [hb hlx]
        exact not_not.2 ⟨fun _ => not_lt.1 hs, not_not.1 fun hn => hz (hbad.2 hn)⟩
  · have hm := (h.nst.shows_.merged x hreg).2 hlx
    rw [if_neg (by simp [hm])]
    refine ⟨_, rfl, ?_⟩
    have hd : ∀ r, T.live r → (r ∈ d ++ [x] ↔ r ∈ d) := by
      intro r hr
      have : r ≠ x := by rintro rfl; exact hlx hr
      simp [this]
    exact h.congr_dom (fun r hr => by simp [hr, hd r hr]) (fun r hr => hr.1)

/-- One worker. -/
theorem Q.worker (hT : T.Ok) {pidx : ι → Nat} {k fuel : Nat} (hf : T.m ≤ fuel) {d : List ι} {regs : Nat → List ι}
    (h : Q T cfg (fun r => T.live r ∧ r ∈ d) l bad s) (hnd : (d ++ regs k).Nodup) (hl : ∀ x ∈ l, x ∈ d)
    (hreg : ∀ x ∈ regs k, T.isReg x) (hb : ∀ x ∈ regs k, T.live x → (bad x ↔ ¬ pass1 T cfg true x)) :
    ∃ R', worker cfg pidx fuel regs s.R k = some R' ∧
      Q T cfg (fun r => T.live r ∧ r ∈ d ++ regs k) l bad { s with R := R' } := by
  have hn := List.nodup_append.1 hnd
  exact foldlM_inv (f := workerVisit cfg pidx k fuel) (s0 := s.R)
    (P := fun t R => Q T cfg (fun r => T.live r ∧ r ∈ d ++ t) l bad { s with R := R }) hn.2.1
    (by simpa using h)
    (fun t R x hq hx hxt _ => by
      have hxd : x ∉ d := fun hd => hn.2.2 x hd x hx rfl
      have := hq.judge hT (pidx := pidx) (k := k) (fuel := fuel) hf (x := x) (by simp [hxd, hxt])
        (fun hl' => hxd (hl x hl')) (hreg x hx) (hb x hx)
      simpa using this)

/-- Counting in a region that is a candidate, or passing over one that is not. -/
theorem Q.countIn (h : Q T cfg dom l bad s) {x : ι} (hx : x ∉ l) (hu : (s.R x).flag = .unknown) :
    Q T cfg dom (l ++ [x]) bad ({ s with R := setCalc s.R x }.count (s.R x).gray 1) := by
  have hr := setCalc_rest s.R x
  refine ⟨⟨h.nst.shows_.setCalc x, ?_, ?_, ?_, ?_, ?_⟩, ?_, ?_⟩
  · intro r hd hb; exact (hr r).2.1.trans (h.nst.par r hd hb)
  · intro e r hd; exact (hr r).2.2.1.trans (h.nst.var e r hd)
  · intro r hd
    show ((setCalc s.R x r).flag = _ ∧ _) ∨ ((setCalc s.R x r).flag = _ ∧ _)
    rw [(hr r).2.2.2]; exact h.nst.flag r hd
  · intro g
    show update s.lev (s.R x).gray (s.lev (s.R x).gray + 1) g = ((l ++ [x]).countP (unk (setCalc s.R x) g) : Int)
    have e : unk (setCalc s.R x) g = unk s.R g := by
      funext r; simp [unk, (hr r).2.2.2, (hr r).1]
    rw [e, List.countP_append, List.countP_singleton]
    by_cases eg : g = (s.R x).gray
    · subst eg; rw [Function.update_self, h.nst.lev]; simp [unk, hu]
    · rw [Function.update_of_ne eg, h.nst.lev]; simp [unk, Ne.symm eg]
  · show s.total + 1 = ((l ++ [x]).countP (cand (setCalc s.R x)) : Int)
    have e : cand (setCalc s.R x) = cand s.R := by
      funext r; simp [cand, (hr r).2.2.2]
    rw [e, List.countP_append, List.countP_singleton, h.nst.total]; simp [cand, hu]
  · intro r hl hru
    show (setCalc s.R x r).counted = true ↔ _
    by_cases e : r = x
    · subst e; simp [setCalc]
    · have : (setCalc s.R x r).flag = .unknown := hru
      rw [(hr r).2.2.2] at this
      simp only [setCalc, Function.update_of_ne e, List.mem_append, List.mem_singleton, e, or_false]
      exact h.cnt r hl this
  · intro r hl hd
    show (setCalc s.R x r).flag = _
    rw [(hr r).2.2.2]; exact h.fresh r hl hd

omit [DecidableEq ι] in
theorem Q.countOut (h : Q T cfg dom l bad s) {x : ι} (hu : (s.R x).flag ≠ .unknown) :
    Q T cfg dom (l ++ [x]) bad s := by
  refine ⟨⟨h.nst.shows_, h.nst.par, h.nst.var, h.nst.flag, ?_, ?_⟩, ?_, h.fresh⟩
  · intro g
    rw [h.nst.lev, List.countP_append, List.countP_singleton]; simp [unk, hu]
  · rw [h.nst.total, List.countP_append, List.countP_singleton]; simp [cand, hu]
  · intro r hl hru
    have : r ≠ x := by rintro rfl; exact hu hru
    simp only [List.mem_append, List.mem_singleton, this, or_false]
    exact h.cnt r hl hru

/-- Marking a candidate, counting it out if it was counted. -/
theorem Q.mark (hT : T.Ok) (h : Q T cfg dom l bad s) (hnd : l.Nodup) {r : ι} (hr : T.live r) (hd : dom r) :
    Q T cfg dom l (fun x => bad x ∨ x = r)
      (if (s.R r).flag = .unknown then
        let s' : RSt ι := if (s.R r).counted then s.count (s.R r).gray (-1) else s
        { s' with R := setFlag s'.R r .invalid }
      else s) := by
  by_cases hf : (s.R r).flag = .unknown
  · rw [if_pos hf]
    have hcnt := h.cnt r hr hf
    have hrest : ∀ s' : RSt ι, s'.R = setFlag s.R r .invalid →
        (∀ x, T.live x → (s'.R x).flag = .unknown → ((s'.R x).counted = true ↔ x ∈ l)) ∧
        (∀ x, T.live x → ¬ dom x → (s'.R x).flag = .unknown) := by
      intro s' e
      refine ⟨fun x hx hu => ?_, fun x hx hn => ?_⟩
      · rw [e] at hu ⊢
        have hxr : x ≠ r := by rintro rfl; rw [setFlag_self] at hu; exact absurd hu (by decide)
        rw [setFlag_flag_ne _ _ hxr] at hu
        rw [(setFlag_rest s.R r x .invalid).2.2.2]
        exact h.cnt x hx hu
      · have hxr : x ≠ r := by rintro rfl; exact hn hd
        rw [e, setFlag_flag_ne _ _ hxr]
        exact h.fresh x hx hn
    by_cases hc : (s.R r).counted = true
    · simp only [hc, if_true]
      exact ⟨h.nst.mark hT hnd hr (hcnt.1 hc) hf, (hrest _ rfl).1, (hrest _ rfl).2⟩
    · simp only [hc]
      exact ⟨h.nst.mark_out hT hr (fun hl => hc (hcnt.2 hl)), (hrest _ rfl).1, (hrest _ rfl).2⟩
  · rw [if_neg hf]
    refine h.congr fun x hx => ?_
    constructor
    · rintro (hb | rfl)
      · exact hb
      · rcases h.nst.flag x hx with e | e
        · exact absurd e.1 hf
        · exact e.2
    · exact .inl

/-- Comparing a region with its parent. -/
theorem Q.pair (hT : T.Ok) (hn : 0 ≤ cfg.nms) (h : Q T cfg dom l bad s) (hnd : l.Nodup) {c p : ι} (hc : T.live c)
    (hp : T.live p) (hdc : dom c) (hdp : dom p) :
    Q T cfg dom l (fun r => bad r ∨ hit T cfg c p r) (nmsPair cfg s c p) := by
  unfold nmsPair
  simp only [h.nst.var rfl c hdc, h.nst.var rfl p hdp]
  by_cases h1 : cfg.nms < cfg.r32 (vval T cfg p - vval T cfg c)
  · have h2 : ¬ cfg.nms < -cfg.r32 (vval T cfg p - vval T cfg c) := by intro h2; linarith
    rw [if_pos h1]
    exact (h.mark hT hnd hp hdp).congr fun r _ => by simp [hit, h1, h2]
  · rw [if_neg h1]
    by_cases h2 : cfg.nms < -cfg.r32 (vval T cfg p - vval T cfg c)
    · rw [if_pos h2]
      exact (h.mark hT hnd hc hdc).congr fun r _ => by simp [hit, h1, h2]
    · rw [if_neg h2]
      exact h.congr fun r _ => by simp [hit, h1, h2]

/-- Nothing changes when both are marked already. -/
theorem Q.pair_none (h : Q T cfg dom l bad s) {c p : ι} (hbc : bad c) (hbp : bad p) :
    Q T cfg dom l (fun r => bad r ∨ pairBad T cfg c p r) s := by
  refine h.congr fun r _ => ?_
  constructor
  · rintro (hb | ⟨_, _, _, _, ⟨_, rfl⟩ | ⟨_, rfl⟩⟩)
    · exact hb
    · exact hbp
    · exact hbc
  · exact .inl

theorem parallelNms_step (hT : T.Ok) (h : Q T cfg T.live l bad s) {x : ι} (hx : x ∉ l) (hnd : l.Nodup)
    (hreg : T.isReg x) (hb : ∀ r, T.live r → ¬ pass1 T cfg true r → bad r) :
    ∃ s', parallelNms cfg s x = some s' ∧ Q T cfg T.live (l ++ [x]) (fun r => bad r ∨ upBad T cfg x r) s' := by
  unfold parallelNms
  have hnd' : (l ++ [x]).Nodup := by
    rw [List.nodup_append]; exact ⟨hnd, by simp, by intro a ha b hb; simp at hb; rintro rfl; subst hb; exact hx ha⟩
  by_cases hlx : T.live x
  · simp only [h.nst.shows_.flag_ne hT hlx, if_false]
    have hub : ∀ p, T.up x = some p → ∀ r, (upBad T cfg x r ↔ pairBad T cfg x p r) := by
      intro p hu r; simp [upBad, hlx, hu]
    -- the comparison
    have go : ∀ (s1 : RSt ι) (p : ι), T.up x = some p → Q T cfg T.live (l ++ [x]) bad s1 →
        ∃ s', (if 0 ≤ cfg.nms ∧ 0 ≤ vval T cfg x ∧ 0 ≤ (s1.R p).var ∧ (s1.R p).gray = T.gr x + 1 then
            some (nmsPair cfg s1 x p) else some s1) = some s' ∧
          Q T cfg T.live (l ++ [x]) (fun r => bad r ∨ upBad T cfg x r) s' := by
      intro s1 p hu h1
      have hlp := hT.up_live x hlx p hu
      rw [h1.nst.var rfl p hlp, h1.nst.shows_.gray]
      by_cases hc : 0 ≤ cfg.nms ∧ 0 ≤ vval T cfg x ∧ 0 ≤ vval T cfg p ∧ T.gr p = T.gr x + 1
      · rw [if_pos hc]
        refine ⟨_, rfl, (h1.pair hT hc.1 hnd' hlx hlp hlx hlp).congr fun r _ => ?_⟩
        rw [hub p hu r]; simp [pairBad, hc]
      · rw [if_neg hc]
        refine ⟨_, rfl, h1.congr fun r _ => ?_⟩
        rw [hub p hu r]
        constructor
        · rintro (hb | hb)
          · exact hb
          · exact absurd ⟨hb.1, hb.2.2.1, hb.2.2.2.1, hb.2.1⟩ hc
        · exact .inl
    rw [h.nst.var rfl x hlx, h.nst.shows_.gray, h.nst.par x hlx (.inl rfl)]
    by_cases hun : (s.R x).flag = .unknown
    · rw [if_pos hun]
      have hq := h.countIn hx hun
      rw [h.nst.shows_.gray] at hq
      cases hu : T.up x with
      | none =>
        exact absurd (hb x hlx fun hp => hp.2.2.2 hu) ((h.nst.unknown_iff hlx).1 hun)
      | some p => exact go _ p hu hq
    · rw [if_neg hun]
      have hq := h.countOut hun
      cases hu : T.up x with
      | none =>
        refine ⟨s, rfl, hq.congr fun r _ => by simp [upBad, hu]⟩
      | some p =>
        have hlp := hT.up_live x hlx p hu
        simp only
        by_cases hpi : (s.R p).flag = .invalid
        · rw [if_pos hpi]
          refine ⟨s, rfl, (hq.pair_none (c := x) (p := p) (not_not.1 fun hn => hun ((h.nst.unknown_iff hlx).2 hn))
            ((h.nst.invalid_iff hlp).1 hpi)).congr fun r _ => by rw [hub p hu r]⟩
        · rw [if_neg hpi]
          exact go s p hu hq
  · have hm := (h.nst.shows_.merged x hreg).2 hlx
    simp only [hm, if_true]
    exact ⟨s, rfl, (h.countOut (by simp [hm])).congr fun r _ => by simp [upBad, hlx]⟩

/-- The workers of all patches. -/
theorem workers_spec (hT : T.Ok) {pidx : ι → Nat} {fuel : Nat} (hf : T.m ≤ fuel) {regs : Nat → List ι} :
    ∀ (ks : List Nat) (d : List ι) (R : RForest ι),
      Q T cfg (fun r => T.live r ∧ r ∈ d) [] (fun r => ¬ pass1 T cfg true r) ⟨R, fun _ => 0, 0⟩ →
      (d ++ ks.flatMap regs).Nodup → (∀ r ∈ ks.flatMap regs, T.isReg r) →
      ∃ R', ks.foldlM (worker cfg pidx fuel regs) R = some R' ∧
        Q T cfg (fun r => T.live r ∧ r ∈ d ++ ks.flatMap regs) [] (fun r => ¬ pass1 T cfg true r)
          ⟨R', fun _ => 0, 0⟩
  | [], d, R, h, _, _ => ⟨R, rfl, by simpa using h⟩
  | k :: ks, d, R, h, hnd, hreg => by
    rw [List.flatMap_cons, ← List.append_assoc] at hnd
    obtain ⟨R1, e1, h1⟩ := h.worker hT (pidx := pidx) (k := k) (regs := regs) hf (List.nodup_append.1 hnd).1 (by simp)
      (fun x hx => hreg x (by simp [hx])) (fun _ _ _ => Iff.rfl)
    obtain ⟨R2, e2, h2⟩ := workers_spec hT hf ks (d ++ regs k) R1 h1 hnd (fun x hx => hreg x (by
      rw [List.flatMap_cons]; exact List.mem_append_right _ hx))
    refine ⟨R2, ?_, by rw [List.flatMap_cons, ← List.append_assoc]; exact h2⟩
    rw [List.foldlM_cons]
    have e1' : Recog.worker cfg pidx fuel regs R k = some R1 := e1
    rw [e1']; exact e2

omit [DecidableEq ι] in
/-- The state before recognition. -/
theorem Q.start {R : RForest ι} (hR : Shows T R)
    (hfresh : ∀ r, T.live r → (R r).flag = .unknown ∧ (R r).counted = false) :
    Q T cfg (fun r => T.live r ∧ r ∈ ([] : List ι)) [] bad ⟨R, fun _ => 0, 0⟩ :=
  ⟨⟨hR, fun r hr => absurd hr.2 (by simp), fun _ r hr => absurd hr.2 (by simp), fun r hr => absurd hr.2 (by simp),
    fun g => by simp, by simp⟩, fun r hr _ => by simp [(hfresh r hr).2], fun r hr _ => (hfresh r hr).1⟩

/-- **Selection with 32 threads.** -/
theorem selectParallel_spec (hT : T.Ok) {pidx : ι → Nat} {fuel n : Nat} (hf : T.m ≤ fuel) {regs : Nat → List ι}
    (hnd : ((List.range n).flatMap regs).Nodup)
    (hreg : ∀ r ∈ (List.range n).flatMap regs, T.isReg r) (hall : ∀ r, T.live r → r ∈ (List.range n).flatMap regs)
    {R : RForest ι} (hR : Shows T R)
    (hfresh : ∀ r, T.live r → (R r).flag = .unknown ∧ (R r).counted = false) :
    ∃ s, selectParallel cfg pidx fuel n regs R = some s ∧
      Q T cfg T.live ((List.range n).flatMap regs) (finalBad T cfg true) s := by
  obtain ⟨R1, e1, h1⟩ := workers_spec (cfg := cfg) hT (pidx := pidx) hf (List.range n) [] R (Q.start hR hfresh)
    (by simpa using hnd) hreg
  have h1' : Q T cfg T.live [] (fun r => ¬ pass1 T cfg true r) ⟨R1, fun _ => 0, 0⟩ :=
    h1.congr_dom (fun r hr => by simp only [hr, true_and, List.nil_append, true_iff]; exact hall r hr)
      (fun r hr => hr)
  obtain ⟨s, e2, h2⟩ := foldlM_inv (f := parallelNms cfg) (s0 := ⟨R1, fun _ => 0, 0⟩)
    (P := fun l s => l.Nodup ∧ Q T cfg T.live l (fun r => ¬ pass1 T cfg true r ∨ ∃ c ∈ l, upBad T cfg c r) s) hnd
    ⟨by simp, h1'.congr fun r _ => by simp⟩
    (fun l s x h hx hxl _ => by
      obtain ⟨s', e', h'⟩ := parallelNms_step hT h.2 hxl h.1 (hreg x hx) (fun r _ hp => .inl hp)
      refine ⟨s', e', ?_, h'.congr fun r _ => ?_⟩
      · rw [List.nodup_append]
        exact ⟨h.1, by simp, by intro a ha b hb; simp at hb; rintro rfl; subst hb; exact hxl ha⟩
      · simp only [List.mem_append, List.mem_singleton, or_assoc]
        refine or_congr Iff.rfl ?_
        constructor
        · rintro ⟨c, hc | rfl, h⟩
          · exact .inl ⟨c, hc, h⟩
          · exact .inr h
        · rintro (⟨c, hc, h⟩ | h)
          · exact ⟨c, .inl hc, h⟩
          · exact ⟨x, .inr rfl, h⟩)
  refine ⟨s, ?_, h2.2.congr fun r _ => ?_⟩
  · unfold selectParallel; rw [e1]; exact e2
  · unfold finalBad
    refine or_congr Iff.rfl ?_
    constructor
    · rintro ⟨_, c, hc⟩; exact ⟨c, hall c hc.1, hc⟩
    · rintro ⟨c, _, hc⟩; exact ⟨rfl, c, hc⟩

end Verif.Recog
