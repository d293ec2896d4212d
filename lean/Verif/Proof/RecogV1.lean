import Verif.Model.RecognizeV1
import Verif.Proof.RecogMain
import Mathlib.Tactic.Linarith

/-!
# Proof: duplicate removal of V1 is that of V2 as long as the threshold is below 3/5
-/

namespace Verif.Recog

open Relation (ReflTransGen TransGen)
open Verif.Spec (Rounding Grouping kept)

variable {ι : Type} [DecidableEq ι] {T : Tree ι} {cfg : Cfg} {R : RForest ι} {uv : Bool}

/-- Regions of which neither contains the other are disjoint parts of a region containing both. -/
def Apart (T : Tree ι) : Prop :=
  ∀ a b p, T.live a → T.live b → above T a p → above T b p → a ≠ b → ¬ above T a b → ¬ above T b a →
    T.sz a + T.sz b ≤ T.sz p

/-- Where kept regions come from. -/
structure Origin (T : Tree ι) (cfg : Cfg) (R : RForest ι) (C : List ι) : Prop where
  from_ : ∀ a, T.live a → (R a).flag = .valid → ∃ r, T.live r ∧ (R r).flag ≠ .unknown ∧ (∀ x ∈ C, T.gr r ≤ T.gr x) ∧
    (a = r ∨ above T r a ∧ near T cfg r a ∧ ∀ b, above T r b → above T b a → (R b).flag ≠ .unknown)

omit [DecidableEq ι] in
theorem near_bound (h64 : Rounding cfg.r64) (hd : cfg.dup < cfg.r64 (3 / 5)) {r a : ι} (hr : 0 < T.sz r)
    (h : near T cfg r a) : 5 * T.sz a < 8 * T.sz r := by
  have h1 : cfg.r64 ((((T.sz a : Int) - (T.sz r : Int) : Int) : ℚ) / ((T.sz r : Int) : ℚ)) < cfg.r64 (3 / 5) :=
    lt_of_le_of_lt h.2 hd
  have h2 : (((T.sz a : Int) - (T.sz r : Int) : Int) : ℚ) / ((T.sz r : Int) : ℚ) < 3 / 5 := by
    by_contra hc
    exact absurd (h64.mono _ _ (not_lt.1 hc)) (not_le.2 h1)
  have h3 : (0 : ℚ) < ((T.sz r : Int) : ℚ) := by exact_mod_cast hr
  rw [div_lt_iff₀ h3] at h2
  have h4 : (5 : ℚ) * (((T.sz a : Int) - (T.sz r : Int) : Int) : ℚ) < 3 * ((T.sz r : Int) : ℚ) := by linarith
  have h5 : (5 : Int) * ((T.sz a : Int) - (T.sz r : Int)) < 3 * (T.sz r : Int) := by exact_mod_cast h4
  omega

omit [DecidableEq ι] in
/-- A kept region above a candidate is too large for its group. -/
theorem not_near (hT : T.Ok) (h64 : Rounding cfg.r64) (hd : cfg.dup < cfg.r64 (3 / 5)) (hap : Apart T) {x : ι} {C : List ι}
    (hC : Rest T cfg R (x :: C)) (hO : Origin T cfg R (x :: C)) {a : ι} (ha : above T x a)
    (hv : (R a).flag = .valid) :
    ¬ near T cfg x a ∧ ∀ m, T.live m → near T cfg x m → ¬ near T cfg m a := by
  have hx := hC.live x (by simp)
  have hu : (R x).flag = .unknown := (hC.mem x hx).2 (by simp)
  obtain ⟨r, hr, hru, hgr, hor⟩ := hO.from_ a (above_facts hT hx ha).1 hv
  have hgx := hgr x (by simp)
  rcases hor with rfl | ⟨h1, h2, h3⟩
  · have := (above_facts hT hx ha).2.1; omega
  · have hne : r ≠ x := by rintro rfl; exact hru hu
    have hsum := hap r x a hr hx h1 ha hne (fun h => h3 x h ha hu) (fun h => by
      have := (above_facts hT hx h).2.1; omega)
    have hpr := hT.sz_pos r hr
    have hpx := hT.sz_pos x hx
    have b1 := near_bound h64 hd hpr h2
    refine ⟨fun h => ?_, fun m hm hxm hma => ?_⟩
    · have b2 := near_bound h64 hd hpx h; omega
    · have b2 := near_bound h64 hd hpx hxm
      have b3 := near_bound h64 hd (hT.sz_pos m hm) hma
      omega

omit [DecidableEq ι] in
theorem dupLoopV1_eq (hT : T.Ok) (h : Linked T cfg R) {st : ι} :
    ∀ {n : Nat} {b : ι}, T.live b → cfg.minPoint ≤ (T.sz b : Int) →
      (∀ a, above T b a → near T cfg st a → (R a).flag ≠ .valid) →
      dupLoopV1 cfg R st n (T.up b) = dupLoop cfg R st n (T.up b) := by
  intro n
  induction n with
  | zero => intro b _ _ _; cases T.up b <;> rfl
  | succ n ih =>
    intro b hb hmin hno
    cases hu : T.up b with
    | none => rfl
    | some p =>
      have hp := hT.up_live b hb p hu
      have hs := hT.sz_lt b hb p hu
      unfold dupLoop dupLoopV1
      simp only [h.size]
      by_cases h1 : cfg.maxPoint < (T.sz p : Int)
      · rw [if_pos h1, if_pos h1]
      · rw [if_neg h1, if_neg h1]
        by_cases h2 : cfg.dup < cfg.r64 ((((T.sz p : Int) - (T.sz st : Int) : Int) : ℚ) / ((T.sz st : Int) : ℚ))
        · rw [if_pos h2, if_pos h2]
        · rw [if_neg h2, if_neg h2]
          have hv : (R p).flag ≠ .valid := hno p (.single hu) ⟨by omega, not_lt.1 h2⟩
          rw [h.par p hp (by omega) (by omega), ih hp (by omega) (fun a ha => hno a (.head hu ha))]
          simp only [hv, false_or]

/-- The group of a candidate: V1 finds the same, it is made up as follows. -/
theorem groupV1_eq (hT : T.Ok) (h64 : Rounding cfg.r64) (hd : cfg.dup < cfg.r64 (3 / 5)) (hap : Apart T)
    (h : Linked T cfg R) {x : ι} {C : List ι}
    (hC : Rest T cfg R (x :: C)) (hO : Origin T cfg R (x :: C)) :
    groupV1 cfg R x = group cfg R x ∧ ∃ A B : List ι, ∃ m : ι, group cfg R x = some (A ++ B, A.length / 2) ∧
      (A ++ B)[A.length / 2]? = some m ∧ m ∈ A ∧ x ∈ A ∧
      (∀ y ∈ A, y = x ∨ above T x y ∧ near T cfg x y) ∧
      ∀ y ∈ x :: C, above T x y → near T cfg x y → y ∈ A := by
  have hx : x ∈ x :: C := by simp
  have hlx := hC.live x hx
  have hfirst : getDuplicatedV1 cfg R x x = getDuplicated cfg R x x := by
    unfold getDuplicatedV1 getDuplicated
    rw [h.par x hlx (hC.min x hx) (hC.max x hx)]
    exact dupLoopV1_eq hT h hlx (hC.min x hx) fun a ha hn hv => (not_near hT h64 hd hap hC hO ha hv).1 hn
  obtain ⟨l, e1, hl, hls⟩ := getDuplicated_spec hT h64 h hC hx hx
  have hlen : (x :: l).length / 2 < (x :: l).length := by simp only [List.length_cons]; omega
  obtain ⟨m, hm⟩ : ∃ m, (x :: l)[(x :: l).length / 2]? = some m := ⟨_, List.getElem?_eq_getElem hlen⟩
  obtain ⟨e, he⟩ : ∃ e, (x :: l).getLast? = some e := ⟨_, List.getLast?_eq_some_getLast (by simp)⟩
  have hA : ∀ y ∈ x :: l, y = x ∨ above T x y ∧ near T cfg x y := by
    intro y hy
    rcases List.mem_cons.1 hy with rfl | hy
    · exact .inl rfl
    · exact .inr ((hl y).1 hy).2
  have hAll : ∀ y ∈ x :: C, above T x y → near T cfg x y → y ∈ x :: l :=
    fun y hy h1 h2 => List.mem_cons_of_mem _ ((hl y).2 ⟨hy, h1, h2⟩)
  have hsubA : ∀ y ∈ x :: l, y ∈ x :: C := by
    intro y hy
    rcases List.mem_cons.1 hy with rfl | hy
    · simp
    · exact ((hl y).1 hy).1
  have hmA := List.mem_of_getElem? hm
  have heA := List.mem_of_getLast? he
  unfold groupV1 group
  rw [hfirst, e1]
  simp only
  by_cases hmid : 0 < (x :: l).length / 2
  · rw [if_pos hmid, if_pos hmid, hm, he]
    simp only
    have hmC := hsubA m hmA
    have heC := hsubA e heA
    have hsecond : getDuplicatedV1 cfg R m e = getDuplicated cfg R m e := by
      unfold getDuplicatedV1 getDuplicated
      rw [h.par e (hC.live e heC) (hC.min e heC) (hC.max e heC)]
      refine dupLoopV1_eq hT h (hC.live e heC) (hC.min e heC) fun a ha hn hv => ?_
      have hxa : above T x a := by
        rcases hA e heA with rfl | ⟨h1, _⟩
        · exact ha
        · exact TransGen.trans h1 ha
      have := not_near hT h64 hd hap hC hO hxa hv
      rcases hA m hmA with rfl | ⟨_, h2⟩
      · exact this.1 hn
      · exact this.2 m (hC.live m hmC) h2 hn
    obtain ⟨l', e2, _⟩ := getDuplicated_spec hT h64 h hC hmC heC
    rw [hsecond, e2]
    refine ⟨rfl, x :: l, l', m, rfl, ?_, hmA, by simp, hA, hAll⟩
    rw [List.getElem?_append_left hlen]; exact hm
  · rw [if_neg hmid, if_neg hmid]
    exact ⟨rfl, x :: l, [], m, by rw [List.append_nil], by rw [List.append_nil]; exact hm, hmA, by simp, hA, hAll⟩

/-- The loops of V1 and V2 do the same. -/
theorem dedupV1_loop (hT : T.Ok) (h64 : Rounding cfg.r64) (hd : cfg.dup < cfg.r64 (3 / 5)) (hap : Apart T) :
    ∀ (rest : List ι) (s : DSt ι), Linked T cfg s.R → Rest T cfg s.R (rest.filter (cand s.R)) →
      Origin T cfg s.R (rest.filter (cand s.R)) →
      rest.foldlM (dedupStepV1 cfg) s = rest.foldlM (dedupStep cfg) s
  | [], s, _, _, _ => rfl
  | x :: xs, s, hL, hR, hO => by
    rw [List.foldlM_cons, List.foldlM_cons]
    by_cases hf : (s.R x).flag = .unknown
    · have hx : cand s.R x = true := by simp [cand, hf]
      rw [List.filter_cons_of_pos hx] at hR hO
      obtain ⟨heq, A, B, m, e1, hm, hmA, hxA, hA, hAll⟩ := groupV1_eq hT h64 hd hap hL hR hO
      obtain ⟨A', B', m', e1', _, hn, _, hxg, hsub⟩ := group_spec hT h64 hL hR
      have hAB : A' ++ B' = A ++ B := by
        rw [e1'] at e1; exact (Prod.mk.inj (Option.some.inj e1)).1
      rw [hAB] at hn hxg hsub
      have hstep : dedupStep cfg s x = some ⟨markGroup s.R (A ++ B) (A.length / 2), s.valid + 1⟩ := by
        unfold dedupStep
        rw [if_neg (not_not.2 hf), e1]
      have hstep' : dedupStepV1 cfg s x = some ⟨markGroup s.R (A ++ B) (A.length / 2), s.valid + 1⟩ := by
        unfold dedupStepV1
        rw [if_neg (not_not.2 hf), heq, e1]
      rw [hstep, hstep']
      have hmark := markGroup_spec (A ++ B) hn (A.length / 2) s.R
      generalize hR1 : markGroup s.R (A ++ B) (A.length / 2) = R1 at hmark
      have hcand : ∀ y, cand R1 y = true ↔ (cand s.R y = true ∧ y ∉ A ++ B) := by
        intro y
        unfold cand
        rw [hmark y]
        by_cases hy : y ∈ A ++ B
        · simp only [reflag, hy, if_true, decide_eq_true_eq]
          split <;> simp
        · simp [reflag, hy]
      have hfil : xs.filter (cand R1) = (xs.filter (cand s.R)).filter (fun a => decide (a ∉ A ++ B)) := by
        rw [List.filter_filter]
        refine List.filter_congr fun y _ => ?_
        rw [Bool.eq_iff_iff, hcand, Bool.and_eq_true, decide_eq_true_eq]; tauto
      have hL1 : Linked T cfg R1 := by
        refine ⟨fun r => by rw [hmark]; exact hL.gray r, fun r => by rw [hmark]; exact hL.size r,
          fun r h1 h2 h3 => by rw [hmark]; exact hL.par r h1 h2 h3, fun r hr => ?_⟩
        rw [hmark]
        simp only [reflag]
        split
        · split <;> simp
        · exact hL.flag r hr
      have hs : ∀ r ∈ xs.filter (cand R1), r ∈ x :: xs.filter (cand s.R) := by
        intro r hr; rw [hfil, List.mem_filter] at hr; exact List.mem_cons_of_mem _ hr.1
      have hR1' : Rest T cfg R1 (xs.filter (cand R1)) := by
        refine ⟨fun r hr => hR.live r (hs r hr), fun r hr => hR.min r (hs r hr), fun r hr => hR.max r (hs r hr), ?_, ?_, ?_⟩
        · rw [hfil]; exact (List.pairwise_cons.1 hR.sorted).2.filter _
        · rw [hfil]; exact (List.nodup_cons.1 hR.nodup).2.filter _
        · intro r hr
          have h1 : (R1 r).flag = .unknown ↔ cand R1 r = true := by simp [cand]
          rw [h1, List.mem_filter]
          constructor
          · intro hc
            refine ⟨?_, hc⟩
            have h2 := (hcand r).1 hc
            have := (hR.mem r hr).1 (by simpa [cand] using h2.1)
            rcases List.mem_cons.1 this with rfl | h3
            · exact absurd hxg h2.2
            · exact (List.mem_filter.1 h3).1
          · exact fun h => h.2
      have hkeep : ∀ b, (s.R b).flag ≠ .unknown → (R1 b).flag ≠ .unknown := by
        intro b hb h1
        have := (hcand b).1 (by simp [cand, h1])
        exact hb (by simpa [cand] using this.1)
      have hgone : ∀ b ∈ A ++ B, (R1 b).flag ≠ .unknown := by
        intro b hb h1
        exact ((hcand b).1 (by simp [cand, h1])).2 hb
      have hlx := hR.live x (by simp)
      have hO1 : Origin T cfg R1 (xs.filter (cand R1)) := by
        refine ⟨fun a ha hv => ?_⟩
        by_cases hag : a ∈ A ++ B
        · have ham : a = m := by
            rw [hmark a] at hv
            simp only [reflag, hag, if_true] at hv
            by_contra hne
            rw [hm, if_neg (by simp [Ne.symm hne])] at hv
            cases hv
          subst ham
          refine ⟨x, hlx, hgone x hxg, fun y hy => (List.pairwise_cons.1 hR.sorted).1 y ?_, ?_⟩
          · rw [hfil, List.mem_filter] at hy; exact hy.1
          · rcases hA a hmA with e | ⟨h1, h2⟩
            · exact .inl e
            · refine .inr ⟨h1, h2, fun b hb hba hbu => ?_⟩
              have hlb := above_facts hT hlx hb
              have hla := above_facts hT hlb.1 hba
              have hu : (s.R b).flag = .unknown := by
                have := (hcand b).1 (by simp [cand, hbu])
                simpa [cand] using this.1
              have hbA := hAll b ((hR.mem b hlb.1).1 hu) hb (near_mono h64 (hT.sz_pos x hlx) (by omega) h2)
              exact hgone b (List.mem_append_left _ hbA) hbu
        · have hv' : (s.R a).flag = .valid := by
            rw [hmark a] at hv
            simpa only [reflag, hag, if_false] using hv
          obtain ⟨r, h1, h2, h3, h4⟩ := hO.from_ a ha hv'
          refine ⟨r, h1, hkeep r h2, fun y hy => h3 y (hs y hy), ?_⟩
          rcases h4 with h4 | ⟨h4, h5, h6⟩
          · exact .inl h4
          · exact .inr ⟨h4, h5, fun b hb hba => hkeep b (h6 b hb hba)⟩
      exact dedupV1_loop hT h64 hd hap xs ⟨R1, s.valid + 1⟩ hL1 hR1' hO1
    · have hx : ¬ cand s.R x = true := by simp [cand, hf]
      rw [List.filter_cons_of_neg hx] at hR hO
      have hstep : dedupStep cfg s x = some s := by unfold dedupStep; rw [if_pos hf]
      have hstep' : dedupStepV1 cfg s x = some s := by unfold dedupStepV1; rw [if_pos hf]
      rw [hstep, hstep']
      exact dedupV1_loop hT h64 hd hap xs s hL hR hO

/-- Duplicate removal of V1 is that of V2. -/
theorem dedupV1_eq (hT : T.Ok) (h64 : Rounding cfg.r64) (hd : cfg.dup < cfg.r64 (3 / 5)) (hap : Apart T) {arr : List ι}
    (hL : Linked T cfg R) (hR : Rest T cfg R arr) (hno : ∀ r, T.live r → (R r).flag ≠ .valid) :
    dedupV1 cfg R arr = dedup cfg R arr := by
  have hall : arr.filter (cand R) = arr := by
    rw [List.filter_eq_self]
    intro r hr
    have := (hR.mem r (hR.live r hr)).2 hr
    simp [cand, this]
  have hO : Origin T cfg R arr := ⟨fun a ha hv => absurd hv (hno a ha)⟩
  have hloop := dedupV1_loop hT h64 hd hap arr ⟨R, 0⟩ hL (by rw [hall]; exact hR) (by rw [hall]; exact hO)
  obtain ⟨s, gs, e1, hG, hv, hf⟩ := dedup_loop hT h64 arr ⟨R, 0⟩ hL (by rw [hall]; exact hR)
  obtain ⟨out, gs', e2, hG', _, hrep, hlen, _⟩ := dedup_spec hT h64 hL hR
  simp only [hall] at hG hv hf
  unfold dedupV1
  rw [hloop, e1]
  unfold dedup
  rw [e1]
  simp only
  have hfil : arr.filter (fun r => decide ((s.R r).flag = .valid)) = arr.filter (fun r => decide (r ∈ kept gs)) := by
    refine List.filter_congr fun r hr => ?_
    rw [decide_eq_decide, hf r]
    have := (hR.mem r (hR.live r hr)).2 hr
    simp only [reflag, hr, if_true]
    split <;> simp_all
  have hperm : (arr.filter (fun r => decide (r ∈ kept gs))).Perm (kept gs) := by
    refine (List.perm_ext_iff_of_nodup (hR.nodup.filter _) (hG.kept_nodup hR.nodup)).2 fun x => ?_
    rw [List.mem_filter, decide_eq_true_eq]
    exact ⟨fun h => h.2, fun h => ⟨hG.kept_sub hR.nodup x h, h⟩⟩
  have hl : (arr.filter (fun r => decide ((s.R r).flag = .valid))).length = s.valid := by
    rw [hfil, hperm.length_eq, hv]; simp [kept]
  rw [List.take_append_of_le_length (by omega)]

/-- **Recognition of V1.** -/
theorem recognizeV1_spec (hT : T.Ok) (h64 : Rounding cfg.r64) (hsz : ∀ r, T.live r → T.sz r < 2 ^ 31)
    (hd : cfg.dup < cfg.r64 (3 / 5)) (hap : Apart T)
    {pidx : ι → Nat} {fuel n : Nat} (hf : T.m ≤ fuel) {regs : Nat → List ι}
    (hnd : ((List.range n).flatMap regs).Nodup)
    (hreg : ∀ r ∈ (List.range n).flatMap regs, T.isReg r) (hall : ∀ r, T.live r → r ∈ (List.range n).flatMap regs)
    (hR : Shows T R)
    (hfresh : ∀ r, T.live r → (R r).flag = .unknown ∧ (R r).counted = false) {hsize : Nat}
    (hcap : ∀ l : List ι, l.Nodup → (∀ r ∈ l, T.live r) → l.length ≤ hsize) :
    ∃ out, recognizeV1 cfg pidx fuel n regs hsize R = some out ∧
      Outcome T cfg true ((List.range n).flatMap regs) out := by
  obtain ⟨s, e1, h1⟩ := selectParallel_spec (cfg := cfg) hT (pidx := pidx) hf hnd hreg hall hR hfresh
  obtain ⟨arr0, e0, h0, hm0, hst⟩ := order_spec hT hnd hreg hall h1.nst (msize := s.total.toNat) (by omega)
  have htot : s.total ≤ (hsize : Int) := by
    have hle := hcap arr0 h0.nodup fun r hr => ((h0.mem r).1 hr).1
    have h2 : (arr0.length : Int) = s.total := by
      have hlive : ∀ r ∈ (List.range n).flatMap regs, (s.R r).flag = .unknown → T.live r := by
        intro r hr hf
        by_contra hn
        have := (h1.nst.shows_.merged r (hreg r hr)).2 hn
        rw [hf] at this; simp at this
      have hgr : ∀ r ∈ (List.range n).flatMap regs, (s.R r).flag = .unknown → (s.R r).gray < 256 := by
        intro r hr hf
        rw [h1.nst.shows_.gray]; exact hT.gr_lt r (hlive r hr hf)
      have e3 := grayOrder_spec h1.nst.lev hgr (msize := s.total.toNat) (by have := h1.nst.total; omega)
      rw [e0] at e3
      rw [Option.some.inj e3, byGray_length hgr, h1.nst.total]
    omega
  obtain ⟨arr, e2, h2, hm, _⟩ := order_spec hT hnd hreg hall h1.nst (msize := hsize) htot
  unfold recognizeV1
  rw [e1]; simp only; rw [e2]; simp only
  by_cases hd0 : 0 < cfg.dup
  · rw [if_pos hd0, dedupV1_eq hT h64 hd hap (linked_of hT h1.nst) (rest_of h2 h1.nst) fun r hr => ?_]
    · exact dedup_outcome hT h64 h2 h1.nst
    · intro hv
      by_cases hb : finalBad T cfg true r
      · rw [(h1.nst.invalid_iff hr).2 hb] at hv; cases hv
      · rw [(h1.nst.unknown_iff hr).2 hb] at hv; cases hv
  · rw [if_neg hd0]; exact ⟨_, rfl, keepAll_outcome hT h64 (not_lt.1 hd0) hsz h2 h1.nst⟩

end Verif.Recog
