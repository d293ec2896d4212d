import Verif.Proof.RecogOrder
import Verif.Spec.Group
import Mathlib.Data.List.Sort

/-!
# Proof: duplicate removal
-/

namespace Verif.Recog

open Relation (ReflTransGen TransGen)
open Verif.Spec (Rounding Grouping kept)

variable {ι : Type} [DecidableEq ι] {T : Tree ι} {cfg : Cfg} {R : RForest ι}

/-- Proper ancestors, nearest first. -/
def ancs (T : Tree ι) : Nat → Option ι → List ι
  | 0, _ => []
  | _, none => []
  | n + 1, some p => p :: ancs T n (T.up p)

/-- Proper ancestor. -/
def above (T : Tree ι) (r a : ι) : Prop := TransGen (fun x y => T.up x = some y) r a

/-- Near enough in size to count as a duplicate. -/
def near (T : Tree ι) (cfg : Cfg) (r a : ι) : Prop :=
  (T.sz a : Int) ≤ cfg.maxPoint ∧
    cfg.r64 ((((T.sz a : Int) - (T.sz r : Int) : Int) : ℚ) / ((T.sz r : Int) : ℚ)) ≤ cfg.dup

omit [DecidableEq ι] in
theorem mem_ancs (hT : T.Ok) : ∀ {n : Nat} {b a : ι}, T.live b → 256 ≤ T.gr b + n →
    (a ∈ ancs T n (T.up b) ↔ above T b a) := by
  intro n
  induction n with
  | zero => intro b a hb hn; have := hT.gr_lt b hb; omega
  | succ n ih =>
    intro b a hb hn
    cases hu : T.up b with
    | none =>
      simp only [ancs, List.not_mem_nil, false_iff]
      intro h
      obtain ⟨c, hc, _⟩ := TransGen.head'_iff.1 h
      rw [hu] at hc; simp at hc
    | some p =>
      have hp := hT.up_live b hb p hu
      have hg := hT.up_gray b hb p hu
      simp only [ancs, List.mem_cons]
      rw [ih hp (by omega)]
      constructor
      · rintro (rfl | h)
        · exact .single hu
        · exact .head hu h
      · intro h
        obtain ⟨c, hc, hca⟩ := TransGen.head'_iff.1 h
        rw [hu] at hc; cases hc
        rcases ReflTransGen.cases_head hca with e | ⟨d, hd, hda⟩
        · exact .inl e.symm
        · exact .inr (TransGen.head' hd hda)

omit [DecidableEq ι] in
theorem above_facts (hT : T.Ok) {r a : ι} (hr : T.live r) (h : above T r a) :
    T.live a ∧ T.gr r < T.gr a ∧ T.sz r < T.sz a := by
  unfold above at h
  induction h with
  | single h => exact ⟨hT.up_live _ hr _ h, hT.up_gray _ hr _ h, hT.sz_lt _ hr _ h⟩
  | tail _ h ih =>
    have h1 := hT.up_gray _ ih.1 _ h
    have h2 := hT.sz_lt _ ih.1 _ h
    exact ⟨hT.up_live _ ih.1 _ h, by omega, by omega⟩

omit [DecidableEq ι] in
/-- Two ancestors of a region are comparable. -/
theorem above_total {r a b : ι} (ha : above T r a) (hb : above T r b) : a = b ∨ above T a b ∨ above T b a := by
  rcases ReflTransGen.total_of_right_unique (U := by
    intro x y z h1 h2; rw [h1] at h2; exact Option.some.inj h2) ha.to_reflTransGen hb.to_reflTransGen with h | h
  · rcases Relation.reflTransGen_iff_eq_or_transGen.1 h with e | h
    · exact .inl e.symm
    · exact .inr (.inl h)
  · rcases Relation.reflTransGen_iff_eq_or_transGen.1 h with e | h
    · exact .inl e
    · exact .inr (.inr h)

omit [DecidableEq ι] in
theorem ancs_sorted (hT : T.Ok) : ∀ {n : Nat} {b : ι}, T.live b → 256 ≤ T.gr b + n →
    (ancs T n (T.up b)).Pairwise fun x y => T.gr x < T.gr y := by
  intro n
  induction n with
  | zero => intro b hb hn; simp [ancs]
  | succ n ih =>
    intro b hb hn
    cases hu : T.up b with
    | none => simp [ancs]
    | some p =>
      have hp := hT.up_live b hb p hu
      have hg := hT.up_gray b hb p hu
      simp only [ancs, List.pairwise_cons]
      refine ⟨fun a ha => ?_, ih hp (by omega)⟩
      exact (above_facts hT hp ((mem_ancs hT hp (by omega)).1 ha)).2.1

omit [DecidableEq ι] in
/-- Growing regions leave the near ones for good. -/
theorem near_mono (h64 : Rounding cfg.r64) {r a b : ι} (hr : 0 < T.sz r) (hab : T.sz a ≤ T.sz b)
    (h : near T cfg r b) : near T cfg r a := by
  refine ⟨by have := h.1; omega, le_trans (h64.mono _ _ ?_) h.2⟩
  have h1 : (0 : ℚ) < ((T.sz r : Int) : ℚ) := by exact_mod_cast hr
  refine (div_le_div_iff_of_pos_right h1).2 ?_
  have : (T.sz a : Int) - (T.sz r : Int) ≤ (T.sz b : Int) - (T.sz r : Int) := by omega
  exact_mod_cast this

/-- What duplicate removal needs of the regions: every live region is a candidate, dropped or kept, and the
stored parent of a region within the size limits is the real one. -/
structure Linked (T : Tree ι) (cfg : Cfg) (R : RForest ι) : Prop where
  gray : ∀ r, (R r).gray = T.gr r
  size : ∀ r, (R r).size = T.sz r
  par : ∀ r, T.live r → cfg.minPoint ≤ (T.sz r : Int) → (T.sz r : Int) ≤ cfg.maxPoint → (R r).parent = T.up r
  flag : ∀ r, T.live r → (R r).flag ≠ .merged

open Classical in
omit [DecidableEq ι] in
theorem dupLoop_spec (hT : T.Ok) (h64 : Rounding cfg.r64) (h : Linked T cfg R) {st : ι} (hst : 0 < T.sz st) :
    ∀ {n : Nat} {b : ι}, T.live b → cfg.minPoint ≤ (T.sz b : Int) → 256 ≤ T.gr b + n →
      dupLoop cfg R st n (T.up b) =
        some ((ancs T n (T.up b)).filter fun a => near T cfg st a ∧ (R a).flag = .unknown) := by
  intro n
  induction n with
  | zero => intro b hb _ hn; have := hT.gr_lt b hb; omega
  | succ n ih =>
    intro b hb hmin hn
    cases hu : T.up b with
    | none => simp [dupLoop, ancs]
    | some p =>
      have hp := hT.up_live b hb p hu
      have hg := hT.up_gray b hb p hu
      have hs := hT.sz_lt b hb p hu
      unfold dupLoop
      simp only [ancs, h.size]
      have hstop : ¬ near T cfg st p →
          (p :: ancs T n (T.up p)).filter (fun a => near T cfg st a ∧ (R a).flag = .unknown) = [] := by
        intro hn'
        rw [List.filter_eq_nil_iff]
        intro a ha
        rw [decide_eq_true_eq]
        rintro ⟨hna, _⟩
        rcases List.mem_cons.1 ha with rfl | ha
        · exact hn' hna
        · have := above_facts hT hp ((mem_ancs hT hp (by omega)).1 ha)
          exact hn' (near_mono h64 hst (by omega) hna)
      by_cases h1 : cfg.maxPoint < (T.sz p : Int)
      · rw [if_pos h1, hstop]; intro hn'; have := hn'.1; omega
      · rw [if_neg h1]
        by_cases h2 : cfg.dup < cfg.r64 ((((T.sz p : Int) - (T.sz st : Int) : Int) : ℚ) / ((T.sz st : Int) : ℚ))
        · rw [if_pos h2, hstop]; intro hn'; exact absurd h2 (not_lt.2 hn'.2)
        · rw [if_neg h2]
          have hnear : near T cfg st p := ⟨by omega, not_lt.1 h2⟩
          rw [h.par p hp (by omega) (by omega), ih hp (by omega) (by omega)]
          by_cases h3 : (R p).flag = .valid ∨ (R p).flag = .invalid
          · rw [if_pos h3, List.filter_cons_of_neg]
            rcases h3 with h3 | h3 <;> simp [h3]
          · rw [if_neg h3, List.filter_cons_of_pos]
            · rfl
            · have : (R p).flag = .unknown := by
                have := h.flag p hp
                cases hf : (R p).flag <;> simp_all
              simp [hnear, this]

omit [DecidableEq ι] in
theorem eq_of_gr_sorted {l l' : List ι} (h : l.Pairwise fun x y => T.gr x < T.gr y)
    (h' : l'.Pairwise fun x y => T.gr x < T.gr y) (hm : ∀ x, x ∈ l ↔ x ∈ l') : l = l' := by
  have n1 : l.Nodup := h.imp fun h e => by rw [e] at h; omega
  have n2 : l'.Nodup := h'.imp fun h e => by rw [e] at h; omega
  refine List.Perm.eq_of_pairwise (le := fun x y => T.gr x < T.gr y) ?_ h h' ((List.perm_ext_iff_of_nodup n1 n2).2 hm)
  intro a b _ _ h1 h2; omega

/-- The remaining candidates: a list sorted by level of the live regions still unknown. -/
structure Rest (T : Tree ι) (cfg : Cfg) (R : RForest ι) (C : List ι) : Prop where
  live : ∀ r ∈ C, T.live r
  min : ∀ r ∈ C, cfg.minPoint ≤ (T.sz r : Int)
  max : ∀ r ∈ C, (T.sz r : Int) ≤ cfg.maxPoint
  sorted : C.Pairwise fun x y => T.gr x ≤ T.gr y
  nodup : C.Nodup
  mem : ∀ r, T.live r → ((R r).flag = .unknown ↔ r ∈ C)

open Classical in
omit [DecidableEq ι] in
/-- The chain of unknown near ancestors is the part of the candidate list above the region. -/
theorem chain_eq (hT : T.Ok) {C : List ι} (hC : Rest T cfg R C) {b st : ι} (hb : T.live b) :
    (ancs T 256 (T.up b)).filter (fun a => near T cfg st a ∧ (R a).flag = .unknown) =
      C.filter fun a => above T b a ∧ near T cfg st a := by
  refine eq_of_gr_sorted (T := T) ((ancs_sorted hT hb (by omega)).filter _) ?_ fun x => ?_
  · have h1 : (C.filter fun a => above T b a ∧ near T cfg st a).Pairwise fun x y => T.gr x ≤ T.gr y ∧ x ≠ y :=
      (hC.sorted.and hC.nodup).filter _
    refine h1.imp_of_mem ?_
    intro x y hx hy hxy
    rw [List.mem_filter, decide_eq_true_eq] at hx hy
    rcases above_total hx.2.1 hy.2.1 with e | e | e
    · exact absurd e hxy.2
    · exact (above_facts hT (above_facts hT hb hx.2.1).1 e).2.1
    · have := (above_facts hT (above_facts hT hb hy.2.1).1 e).2.1; omega
  · rw [List.mem_filter, List.mem_filter, decide_eq_true_eq, decide_eq_true_eq, mem_ancs hT hb (by omega)]
    constructor
    · rintro ⟨h1, h2, h3⟩
      exact ⟨(hC.mem x (above_facts hT hb h1).1).1 h3, h1, h2⟩
    · rintro ⟨h1, h2, h3⟩
      exact ⟨h2, h3, (hC.mem x (hC.live x h1)).2 h1⟩

omit [DecidableEq ι] in
theorem getDuplicated_spec (hT : T.Ok) (h64 : Rounding cfg.r64) (h : Linked T cfg R) {C : List ι}
    (hC : Rest T cfg R C) {st b : ι} (hst : st ∈ C) (hb : b ∈ C) :
    ∃ l, getDuplicated cfg R st b = some l ∧ (∀ x, x ∈ l ↔ x ∈ C ∧ above T b x ∧ near T cfg st x) ∧
      l.Pairwise (fun x y => T.gr x < T.gr y) := by
  classical
  have hlb := hC.live b hb
  refine ⟨(ancs T 256 (T.up b)).filter (fun a => near T cfg st a ∧ (R a).flag = .unknown), ?_, ?_, ?_⟩
  · unfold getDuplicated
    rw [h.par b hlb (hC.min b hb) (hC.max b hb)]
    exact dupLoop_spec hT h64 h (hT.sz_pos st (hC.live st hst)) hlb (hC.min b hb) (by omega)
  · intro x
    rw [chain_eq hT hC hlb, List.mem_filter, decide_eq_true_eq]
  · exact (ancs_sorted hT hlb (by omega)).filter _

/-! ### Marking a group -/

/-- The regions with other flags. -/
def reflag (R : RForest ι) (f : ι → Flag) : RForest ι := fun y => { R y with flag := f y }

theorem markGroup_aux (g : List ι) (hg : g.Nodup) (mid : Nat) (R : RForest ι) : ∀ k, k ≤ g.length →
    ∀ y, ((List.range k).foldl (fun R j =>
      match g[j]? with
      | some x => setFlag R x (if j = mid then .valid else .invalid)
      | none => R) R y) =
      reflag R (fun y => if y ∈ g.take k then (if g[mid]? = some y then .valid else .invalid) else (R y).flag) y
  | 0, _, y => by simp [reflag]
  | k + 1, hk, y => by
    rw [List.range_succ, List.foldl_append, List.foldl_cons, List.foldl_nil]
    have ih := markGroup_aux g hg mid R k (by omega)
    generalize (List.range k).foldl _ R = R1 at ih
    have hgk : g[k]? = some g[k] := List.getElem?_eq_getElem (by omega)
    rw [hgk]
    simp only
    have htake : g.take (k + 1) = g.take k ++ [g[k]] := by
      rw [List.take_add_one, hgk]; rfl
    rw [htake]
    by_cases e : y = g[k]
    · subst e
      have : (setFlag R1 g[k] (if k = mid then .valid else .invalid) g[k]) =
          { R1 g[k] with flag := if k = mid then .valid else .invalid } := by simp [setFlag]
      rw [this, ih]
      have h2 : (g[mid]? = some g[k]) ↔ k = mid := by
        constructor
        · intro h
          obtain ⟨hm, hh⟩ := List.getElem?_eq_some_iff.1 h
          exact ((hg.getElem_inj_iff).1 hh).symm
        · rintro rfl; exact hgk
      simp only [reflag, h2, List.mem_append, List.mem_singleton, or_true, if_true]
    · have : (setFlag R1 g[k] (if k = mid then .valid else .invalid) y) = R1 y := by
        simp [setFlag, Function.update_of_ne e]
      rw [this, ih]
      simp only [reflag, List.mem_append, List.mem_singleton, e, or_false]

theorem markGroup_spec (g : List ι) (hg : g.Nodup) (mid : Nat) (R : RForest ι) (y : ι) :
    markGroup R g mid y =
      reflag R (fun y => if y ∈ g then (if g[mid]? = some y then .valid else .invalid) else (R y).flag) y := by
  have := markGroup_aux g hg mid R g.length (le_refl _) y
  rwa [List.take_length] at this

/-! ### The loop -/

theorem group_spec (hT : T.Ok) (h64 : Rounding cfg.r64) (h : Linked T cfg R) {x : ι} {C : List ι}
    (hC : Rest T cfg R (x :: C)) : ∃ A B : List ι, ∃ m : ι,
      group cfg R x = some (A ++ B, A.length / 2) ∧ (A ++ B)[A.length / 2]? = some m ∧ (A ++ B).Nodup ∧
      (∀ gs, Grouping (above T) (near T cfg) (C.filter fun a => a ∉ A ++ B) gs →
        Grouping (above T) (near T cfg) (x :: C) ((A ++ B, m) :: gs)) ∧
      x ∈ A ++ B ∧ (∀ y ∈ A ++ B, y ∈ x :: C) := by
  classical
  have hx : x ∈ x :: C := by simp
  have hlx := hC.live x hx
  obtain ⟨l, e1, hl, hls⟩ := getDuplicated_spec hT h64 h hC hx hx
  have hirr : ∀ {a}, T.live a → ¬ above T a a := fun ha hh => by
    have := (above_facts hT ha hh).2.1; omega
  have hC' : C.Nodup := (List.nodup_cons.1 hC.nodup).2
  have strict : ∀ {b} {P : ι → Bool}, T.live b → (∀ a, P a = true → above T b a) →
      (C.filter P).Pairwise fun x y => T.gr x < T.gr y := by
    intro b P hb hP
    have h1 : (C.filter P).Pairwise fun x y => T.gr x ≤ T.gr y ∧ x ≠ y :=
      ((List.pairwise_cons.1 hC.sorted).2.and hC').filter _
    refine h1.imp_of_mem ?_
    intro x y hx hy hxy
    rw [List.mem_filter] at hx hy
    have hx' := hP x hx.2
    have hy' := hP y hy.2
    rcases above_total hx' hy' with e | e | e
    · exact absurd e hxy.2
    · exact (above_facts hT (above_facts hT hb hx').1 e).2.1
    · have := (above_facts hT (above_facts hT hb hy').1 e).2.1; omega
  have hlC : l = C.filter fun a => above T x a ∧ near T cfg x a := by
    refine eq_of_gr_sorted (T := T) hls (strict hlx fun a ha => (of_decide_eq_true ha).1) fun y => ?_
    rw [hl, List.mem_filter, decide_eq_true_eq, List.mem_cons]
    constructor
    · rintro ⟨rfl | h1, h2⟩
      · exact absurd h2.1 (hirr hlx)
      · exact ⟨h1, h2⟩
    · rintro ⟨h1, h2⟩; exact ⟨.inr h1, h2⟩
  have hA : x :: l = x :: C.filter fun a => above T x a ∧ near T cfg x a := by rw [hlC]
  have hlen : (x :: l).length / 2 < (x :: l).length := by simp only [List.length_cons]; omega
  obtain ⟨m, hm⟩ : ∃ m, (x :: l)[(x :: l).length / 2]? = some m := ⟨_, List.getElem?_eq_getElem hlen⟩
  obtain ⟨e, he⟩ : ∃ e, (x :: l).getLast? = some e := ⟨_, List.getLast?_eq_some_getLast (by simp)⟩
  have hsubA : ∀ y ∈ x :: l, y ∈ x :: C := by
    intro y hy
    rcases List.mem_cons.1 hy with rfl | hy
    · simp
    · exact ((hl y).1 hy).1
  unfold group
  rw [e1]
  simp only
  by_cases hmid : 0 < (x :: l).length / 2
  · rw [if_pos hmid, hm, he]
    simp only
    have hmC : m ∈ x :: C := hsubA m (List.mem_of_getElem? hm)
    have heC : e ∈ x :: C := hsubA e (List.mem_of_getLast? he)
    obtain ⟨l', e2, hl', hls'⟩ := getDuplicated_spec hT h64 h hC hmC heC
    rw [e2]
    have hlast : ∀ y, y ∈ x :: l → ¬ above T e y := by
      intro y hy hab
      have h1 := (above_facts hT (hC.live e heC) hab).2.1
      have h2 : (x :: l).Pairwise fun x y => T.gr x < T.gr y := by
        rw [List.pairwise_cons]
        exact ⟨fun z hz => (above_facts hT hlx ((hl z).1 hz).2.1).2.1, hls⟩
      have h3 : T.gr y ≤ T.gr e := by
        rw [List.getLast?_eq_some_iff] at he
        obtain ⟨ys, hys⟩ := he
        rw [hys, List.pairwise_append] at h2
        rw [hys, List.mem_append, List.mem_singleton] at hy
        rcases hy with hy | rfl
        · exact Nat.le_of_lt (h2.2.2 y hy e (by simp))
        · exact Nat.le_refl _
      omega
    have hlC' : l' = C.filter fun a => a ∉ x :: l ∧ above T e a ∧ near T cfg m a := by
      refine eq_of_gr_sorted (T := T) hls' ?_ fun y => ?_
      · exact strict (hC.live e heC) fun a ha => (of_decide_eq_true ha).2.1
      · rw [hl', List.mem_filter, decide_eq_true_eq, List.mem_cons]
        constructor
        · rintro ⟨h1, h2, h3⟩
          have hy := hlast y
          refine ⟨?_, fun hh => hy hh h2, h2, h3⟩
          rcases h1 with rfl | h1
          · exact absurd h2 (hy (by simp))
          · exact h1
        · rintro ⟨h1, _, h2, h3⟩; exact ⟨.inr h1, h2, h3⟩
    have hB' : ∀ y ∈ l', y ∈ C ∧ y ∉ x :: l := by
      intro y hy
      rw [hlC', List.mem_filter, decide_eq_true_eq] at hy
      exact ⟨hy.1, hy.2.1⟩
    have hBn : l'.Nodup := by rw [hlC']; exact hC'.filter _
    obtain ⟨f1, f2, f3, f4⟩ := Grouping.cons_facts hC.nodup hA hm hB' hBn
    refine ⟨x :: l, l', m, rfl, ?_, f1, ?_, List.mem_append_left _ f4, f2⟩
    · rw [List.getElem?_append_left hlen]; exact hm
    · intro gs hgs
      refine Grouping.mk (fun a => decide_eq_true_iff) (fun a => decide_eq_true_iff) (fun a => decide_eq_true_iff) hA hm he ?_ hgs
      rw [if_neg]
      · exact hlC'
      · simp only [List.length_cons] at hmid ⊢; omega
  · rw [if_neg hmid]
    have hl0 : l = [] := by
      cases l with
      | nil => rfl
      | cons a t => simp only [List.length_cons] at hmid; omega
    obtain ⟨f1, f2, f3, f4⟩ := Grouping.cons_facts (B := []) hC.nodup hA hm (by simp) (by simp)
    refine ⟨x :: l, [], m, by rw [List.append_nil], by rw [List.append_nil]; exact hm, f1, ?_, List.mem_append_left _ f4, f2⟩
    intro gs hgs
    refine Grouping.mk (fun a => decide_eq_true_iff) (fun a => decide_eq_true_iff) (fun a => decide_eq_true_iff) hA hm he ?_ hgs
    rw [if_pos]; rw [hl0]; rfl

/-- Duplicate removal from `R` on the remaining list. -/
theorem dedup_loop (hT : T.Ok) (h64 : Rounding cfg.r64) : ∀ (rest : List ι) (s : DSt ι), Linked T cfg s.R →
    Rest T cfg s.R (rest.filter (cand s.R)) →
    ∃ s' gs, rest.foldlM (dedupStep cfg) s = some s' ∧
      Grouping (above T) (near T cfg) (rest.filter (cand s.R)) gs ∧ s'.valid = s.valid + gs.length ∧
      ∀ y, s'.R y = reflag s.R (fun y => if y ∈ kept gs then .valid else
        if y ∈ rest.filter (cand s.R) then .invalid else (s.R y).flag) y
  | [], s, _, _ => ⟨s, [], rfl, .nil, by simp, fun y => by simp [kept, reflag]⟩
  | x :: xs, s, hL, hR => by
    rw [List.foldlM_cons]
    by_cases hf : (s.R x).flag = .unknown
    · have hx : cand s.R x = true := by simp [cand, hf]
      rw [List.filter_cons_of_pos hx] at hR ⊢
      obtain ⟨A, B, m, e1, hm, hn, hG, hxg, hsub⟩ := group_spec hT h64 hL hR
      have hstep : dedupStep cfg s x = some ⟨markGroup s.R (A ++ B) (A.length / 2), s.valid + 1⟩ := by
        unfold dedupStep
        rw [if_neg (not_not.2 hf), e1]
      rw [hstep]
      have hmark := markGroup_spec (A ++ B) hn (A.length / 2) s.R
      generalize hR1 : markGroup s.R (A ++ B) (A.length / 2) = R1 at hmark
      have hcand : ∀ y, cand R1 y = true ↔ (cand s.R y = true ∧ y ∉ A ++ B) := by
        intro y
        unfold cand
        rw [hmark y]
        by_cases hy : y ∈ A ++ B
        · simp only [reflag, hy, if_true, decide_eq_true_eq]
          split <;> simp
        · simp [reflag, hy]
      have hfil : xs.filter (cand R1) = (xs.filter (cand s.R)).filter (fun a => decide (a ∉ A ++ B)) := by
        rw [List.filter_filter]
        refine List.filter_congr fun y _ => ?_
        rw [Bool.eq_iff_iff, hcand, Bool.and_eq_true, decide_eq_true_eq]; tauto
      have hL1 : Linked T cfg R1 := by
        refine ⟨fun r => by rw [hmark]; exact hL.gray r, fun r => by rw [hmark]; exact hL.size r,
          fun r h1 h2 h3 => by rw [hmark]; exact hL.par r h1 h2 h3, fun r hr => ?_⟩
        rw [hmark]
        simp only [reflag]
        split
        · split <;> simp
        · exact hL.flag r hr
      have hR1' : Rest T cfg R1 (xs.filter (cand R1)) := by
        have hs : ∀ r ∈ xs.filter (cand R1), r ∈ x :: xs.filter (cand s.R) := by
          intro r hr; rw [hfil, List.mem_filter] at hr; exact List.mem_cons_of_mem _ hr.1
        refine ⟨fun r hr => hR.live r (hs r hr), fun r hr => hR.min r (hs r hr), fun r hr => hR.max r (hs r hr), ?_, ?_, ?_⟩
        · rw [hfil]; exact (List.pairwise_cons.1 hR.sorted).2.filter _
        · rw [hfil]; exact (List.nodup_cons.1 hR.nodup).2.filter _
        · intro r hr
          have h1 : (R1 r).flag = .unknown ↔ cand R1 r = true := by simp [cand]
          rw [h1, List.mem_filter]
          constructor
          · intro hc
            refine ⟨?_, hc⟩
            have h2 := (hcand r).1 hc
            have := (hR.mem r hr).1 (by simpa [cand] using h2.1)
            rcases List.mem_cons.1 this with rfl | h3
            · exact absurd hxg h2.2
            · exact (List.mem_filter.1 h3).1
          · exact fun h => h.2
      obtain ⟨s', gs, e2, hg2, hv2, hf2⟩ := dedup_loop hT h64 xs ⟨R1, s.valid + 1⟩ hL1 hR1'
      simp only at hg2 hv2 hf2
      have hGr := hG gs (by
        rw [hfil] at hg2
        convert hg2)
      refine ⟨s', (A ++ B, m) :: gs, e2, hGr, by rw [hv2, List.length_cons]; omega, fun y => ?_⟩
      rw [hf2 y]
      have hm' := hmark y
      simp only [reflag] at hm' ⊢
      rw [hm']
      simp only
      congr 1
      have hk : kept ((A ++ B, m) :: gs) = m :: kept gs := rfl
      rw [hk]
      have hks := hg2.kept_sub (hR1'.nodup)
      by_cases hy : y ∈ A ++ B
      · have h1 : y ∉ xs.filter (cand R1) := by
          intro h; exact ((hcand y).1 (List.mem_filter.1 h).2).2 hy
        have h2 : y ∉ kept gs := fun h => h1 (hks y h)
        rw [if_neg h2, if_neg h1, if_pos hy, hm]
        by_cases e : y = m
        · subst e; simp
        · rw [if_neg (by simp [Ne.symm e]), if_neg (by simp [e, h2]), if_pos (hsub y hy)]
      · have hym : y ≠ m := by rintro rfl; exact hy (List.mem_of_getElem? hm)
        have hyx : y ≠ x := by rintro rfl; exact hy hxg
        have h3 : y ∈ xs.filter (cand R1) ↔ y ∈ x :: xs.filter (cand s.R) := by
          rw [hfil, List.mem_filter, List.mem_cons]; simp only [decide_eq_true_eq, hyx, false_or, hy, not_false_eq_true, and_true]
        simp only [List.mem_cons, hym, false_or, hy, if_false]
        rw [if_congr h3 rfl rfl]
        simp only [List.mem_cons, hyx, false_or]
    · have hx : ¬ cand s.R x = true := by simp [cand, hf]
      rw [List.filter_cons_of_neg hx] at hR ⊢
      have hstep : dedupStep cfg s x = some s := by unfold dedupStep; rw [if_pos hf]
      rw [hstep]
      exact dedup_loop hT h64 xs s hL hR

/-- **Duplicate removal.** -/
theorem dedup_spec (hT : T.Ok) (h64 : Rounding cfg.r64) {arr : List ι} (hL : Linked T cfg R)
    (hR : Rest T cfg R arr) :
    ∃ out gs, dedup cfg R arr = some out ∧ Grouping (above T) (near T cfg) arr gs ∧
      (∀ y, out.R y = reflag R (fun y => if y ∈ kept gs then .valid else
        if y ∈ arr then .invalid else (R y).flag) y) ∧
      out.reported = arr.filter (fun r => r ∈ kept gs) ∧ out.reported.length = gs.length ∧
      out.pixels = (out.reported.map T.sz).sum := by
  have hall : arr.filter (cand R) = arr := by
    rw [List.filter_eq_self]
    intro r hr
    have := (hR.mem r (hR.live r hr)).2 hr
    simp [cand, this]
  obtain ⟨s, gs, e1, hG, hv, hf⟩ := dedup_loop hT h64 arr ⟨R, 0⟩ hL (by rw [hall]; exact hR)
  simp only [hall] at hG hv hf
  have hnotvalid : ∀ r ∈ arr, (R r).flag = .unknown := fun r hr => (hR.mem r (hR.live r hr)).2 hr
  have hfil : arr.filter (fun r => decide ((s.R r).flag = .valid)) = arr.filter (fun r => decide (r ∈ kept gs)) := by
    refine List.filter_congr fun r hr => ?_
    rw [decide_eq_decide, hf r]
    simp only [reflag, hr, if_true]
    split <;> simp_all
  have hperm : (arr.filter (fun r => decide (r ∈ kept gs))).Perm (kept gs) := by
    refine (List.perm_ext_iff_of_nodup (hR.nodup.filter _) (hG.kept_nodup hR.nodup)).2 fun x => ?_
    rw [List.mem_filter, decide_eq_true_eq]
    exact ⟨fun h => h.2, fun h => ⟨hG.kept_sub hR.nodup x h, h⟩⟩
  have hlen : (arr.filter (fun r => decide (r ∈ kept gs))).length = gs.length := by
    rw [hperm.length_eq]; simp [kept]
  have htake : (arr.filter (fun r => decide (r ∈ kept gs))).take s.valid = arr.filter (fun r => decide (r ∈ kept gs)) := by
    rw [List.take_of_length_le]; rw [hlen, hv]; omega
  refine ⟨⟨s.R, arr.filter (fun r => decide (r ∈ kept gs)), ((arr.filter (fun r => decide (r ∈ kept gs))).map T.sz).sum⟩,
    gs, ?_, hG, hf, rfl, hlen, rfl⟩
  unfold dedup
  rw [e1]
  simp only [hfil, htake]
  congr 3
  refine List.map_congr_left fun r _ => ?_
  rw [hf r]; exact hL.size r

end Verif.Recog
