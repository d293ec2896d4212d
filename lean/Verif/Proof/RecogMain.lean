import Verif.Proof.RecogDedup

/-!
# Proof: recognition as a whole
-/

namespace Verif.Recog

open Relation (ReflTransGen TransGen)
open Verif.Spec (Rounding Grouping kept)

variable {ι : Type} [DecidableEq ι] {T : Tree ι} {cfg : Cfg} {R : RForest ι} {uv : Bool}

/-- The ordered candidates. -/
structure Arr (T : Tree ι) (cfg : Cfg) (uv : Bool) (order arr : List ι) : Prop where
  mem : ∀ r, r ∈ arr ↔ T.live r ∧ ¬ finalBad T cfg uv r
  nodup : arr.Nodup
  sorted : arr.Pairwise fun x y => T.gr x ≤ T.gr y
  stable : ∀ g, ∃ p : ι → Bool, (∀ r, p r = true → T.gr r = g) ∧
    arr.filter (fun r => T.gr r = g) = order.filter p

/-- The result of recognition. -/
structure Outcome (T : Tree ι) (cfg : Cfg) (uv : Bool) (order : List ι) (out : Recognized ι) : Prop where
  found : ∃ arr gs, Arr T cfg uv order arr ∧ Grouping (above T) (near T cfg) arr gs ∧
    out.reported = arr.filter (fun r => r ∈ kept gs) ∧ out.reported.length = gs.length ∧
    ∀ r, T.live r → (out.R r).flag = if r ∈ kept gs then .valid else .invalid
  pixels : out.pixels = (out.reported.map T.sz).sum
  shows_ : Shows T out.R
  par : ∀ r, T.live r → (uv = true ∨ ¬ finalBad T cfg uv r) → (out.R r).parent = T.up r

/-- Ordering after selection. -/
theorem order_spec (hT : T.Ok) {order : List ι} (hnd : order.Nodup) (hreg : ∀ r ∈ order, T.isReg r)
    (hall : ∀ r, T.live r → r ∈ order) {s : RSt ι} (h : NSt T cfg uv T.live order (finalBad T cfg uv) s) {msize : Nat}
    (hm : s.total ≤ (msize : Int)) :
    ∃ arr, grayOrder s order msize = some arr ∧ Arr T cfg uv order arr ∧
      (∀ r, r ∈ arr ↔ r ∈ order ∧ (s.R r).flag = .unknown) ∧ (startIndex s.lev 256 = s.total) := by
  have hlive : ∀ r ∈ order, (s.R r).flag = .unknown → T.live r := by
    intro r hr hf
    by_contra hn
    have := (h.shows_.merged r (hreg r hr)).2 hn
    rw [hf] at this; simp at this
  have hgr : ∀ r ∈ order, (s.R r).flag = .unknown → (s.R r).gray < 256 := by
    intro r hr hf
    rw [h.shows_.gray]; exact hT.gr_lt r (hlive r hr hf)
  have hmem : ∀ r, r ∈ byGray s.R order 256 ↔ r ∈ order ∧ (s.R r).flag = .unknown := by
    intro r
    rw [mem_byGray]
    exact ⟨fun h => ⟨h.1, h.2.1⟩, fun h => ⟨h.1, h.2, hgr r h.1 h.2⟩⟩
  refine ⟨_, grayOrder_spec h.lev hgr (by have := h.total; omega), ⟨?_, byGray_nodup hnd _, ?_, ?_⟩, hmem, ?_⟩
  · intro r
    rw [hmem]
    constructor
    · rintro ⟨h1, h2⟩; exact ⟨hlive r h1 h2, (h.unknown_iff (hlive r h1 h2)).1 h2⟩
    · rintro ⟨h1, h2⟩; exact ⟨hall r h1, (h.unknown_iff h1).2 h2⟩
  · refine (byGray_sorted 256).imp ?_
    intro a b hab
    rwa [h.shows_.gray, h.shows_.gray] at hab
  · intro g
    by_cases hg : g < 256
    · refine ⟨unk s.R g, fun r hr => ?_, ?_⟩
      · simp only [unk, Bool.and_eq_true, decide_eq_true_eq] at hr
        rw [← h.shows_.gray]; exact hr.2
      · rw [← byGray_stable hg]
        simp only [h.shows_.gray]
    · refine ⟨fun _ => false, fun r hr => by simp at hr, ?_⟩
      rw [List.filter_false, List.filter_eq_nil_iff]
      intro r hr
      rw [mem_byGray, h.shows_.gray] at hr
      simp only [decide_eq_true_eq]; omega
  · rw [startIndex_eq h.lev, byGray_length hgr, h.total]

theorem linked_of (hT : T.Ok) {l : List ι} {s : RSt ι} (h : NSt T cfg uv T.live l (finalBad T cfg uv) s) :
    Linked T cfg s.R := by
  refine ⟨h.shows_.gray, h.shows_.size, fun r hr h1 h2 => ?_, fun r hr => h.shows_.flag_ne hT hr⟩
  by_cases hb : uv = true ∨ ¬ finalBad T cfg uv r
  · exact h.par r hr hb
  · rw [not_or, not_not] at hb
    have hu : T.up r = none := by
      rcases hb.2 with hp | ⟨e, _⟩
      · by_contra hn
        exact hp ⟨fun e => absurd e hb.1, h1, h2, hn⟩
      · exact absurd e hb.1
    rw [hu]; exact (h.shows_.par_none hr).2 hu

omit [DecidableEq ι] in
theorem rest_of {order arr : List ι} (ha : Arr T cfg uv order arr) {l : List ι} {s : RSt ι}
    (h : NSt T cfg uv T.live l (finalBad T cfg uv) s) : Rest T cfg s.R arr := by
  have hp : ∀ r ∈ arr, T.live r ∧ pass1 T cfg uv r := by
    intro r hr
    have := (ha.mem r).1 hr
    exact ⟨this.1, not_not.1 fun hn => this.2 (.inl hn)⟩
  refine ⟨fun r hr => (hp r hr).1, fun r hr => (hp r hr).2.2.1, fun r hr => (hp r hr).2.2.2.1, ha.sorted, ha.nodup, ?_⟩
  intro r hr
  rw [h.unknown_iff hr, ha.mem]
  exact ⟨fun hn => ⟨hr, hn⟩, fun hn => hn.2⟩

/-- Other flags of live regions leave the tree as it is. -/
theorem Shows.reflag (hT : T.Ok) (h : Shows T R) {f : ι → Flag} (hf : ∀ r, T.live r → f r ≠ .merged)
    (hn : ∀ r, ¬ T.live r → f r = (R r).flag) : Shows T (reflag R f) := by
  have hm : ∀ r, T.live r → (R r).flag ≠ .merged := fun r hr => h.flag_ne hT hr
  refine h.congr (fun r => rfl) (fun r => rfl) (fun r => ?_) (fun r => rfl)
  show f r = .merged ↔ (R r).flag = .merged
  by_cases hr : T.live r
  · simp [hf r hr, hm r hr]
  · rw [hn r hr]

theorem dedup_outcome (hT : T.Ok) (h64 : Rounding cfg.r64) {order arr : List ι} (ha : Arr T cfg uv order arr)
    {s : RSt ι} (h : NSt T cfg uv T.live order (finalBad T cfg uv) s) :
    ∃ out, dedup cfg s.R arr = some out ∧ Outcome T cfg uv order out := by
  obtain ⟨out, gs, e1, hG, hf, hrep, hlen, hpix⟩ := dedup_spec hT h64 (linked_of hT h) (rest_of ha h)
  have hR : out.R = reflag s.R (fun y => if y ∈ kept gs then .valid else if y ∈ arr then .invalid else (s.R y).flag) :=
    funext hf
  have hsub := hG.kept_sub ha.nodup
  refine ⟨out, e1, ⟨arr, gs, ha, hG, hrep, hlen, fun r hr => ?_⟩, hpix, ?_, ?_⟩
  · rw [hf r]
    simp only [reflag]
    by_cases hk : r ∈ kept gs
    · rw [if_pos hk, if_pos hk]
    · rw [if_neg hk, if_neg hk]
      by_cases hra : r ∈ arr
      · rw [if_pos hra]
      · rw [if_neg hra, h.invalid_iff hr]
        by_contra hn
        exact hra ((ha.mem r).2 ⟨hr, hn⟩)
  · rw [hR]
    refine h.shows_.reflag hT (fun r hr => ?_) (fun r hr => ?_)
    · split
      · simp
      · split
        · simp
        · exact h.shows_.flag_ne hT hr
    · have hra : r ∉ arr := fun hh => hr ((ha.mem r).1 hh).1
      rw [if_neg (fun hh => hra (hsub r hh)), if_neg hra]
  · intro r hr hu
    rw [hR]; exact h.par r hr hu

/-- No region is near another when the threshold is not positive. -/
theorem grouping_none (hT : T.Ok) (h64 : Rounding cfg.r64) (hd : cfg.dup ≤ 0)
    (hsz : ∀ r, T.live r → T.sz r < 2 ^ 31) : ∀ {arr : List ι}, (∀ r ∈ arr, T.live r) → arr.Nodup →
    Grouping (above T) (near T cfg) arr (arr.map fun r => ([r], r))
  | [], _, _ => .nil
  | r :: C, hl, hnd => by
    classical
    have hnot : ∀ a, ¬ (above T r a ∧ near T cfg r a) := by
      rintro a ⟨h1, h2⟩
      have hr := hl r (by simp)
      have h3 := (above_facts hT hr h1).2.2
      have h4 := h64.pos (T.sz a - T.sz r) (T.sz r) (by omega) (hT.sz_pos r hr) (hsz r hr)
      have e : (((T.sz a : Int) - (T.sz r : Int) : Int) : ℚ) = ((T.sz a - T.sz r : Nat) : ℚ) := by
        rw [Nat.cast_sub (by omega)]; push_cast; rfl
      have h5 := h2.2
      rw [e] at h5
      have h6 : (0 : ℚ) < cfg.dup := lt_of_lt_of_le h4 (by simpa using h5)
      linarith
    have hA : [r] = r :: C.filter (fun _ => false) := by simp
    have := Grouping.mk (above := above T) (near := near T cfg) (r := r) (m := r) (e := r) (C := C) (A := [r])
      (B := []) (gs := C.map fun r => ([r], r)) (pA := fun _ => false)
      (pB := fun a => decide (a ∉ [r] ∧ above T r a ∧ near T cfg r a))
      (pC := fun a => decide (a ∉ [r] ++ [])) (fun a => by simp [hnot a]) (fun a => decide_eq_true_iff)
      (fun a => decide_eq_true_iff) hA (by simp) (by simp) (by simp) (by
        have : C.filter (fun a => decide (a ∉ [r] ++ [])) = C := by
          rw [List.filter_eq_self]
          intro a ha
          have := (List.nodup_cons.1 hnd).1
          simp only [List.append_nil, List.mem_singleton, decide_eq_true_eq]
          rintro rfl; exact this ha
        rw [this]
        exact grouping_none hT h64 hd hsz (fun x hx => hl x (by simp [hx])) (List.nodup_cons.1 hnd).2)
    simpa using this

theorem keepAll_outcome (hT : T.Ok) (h64 : Rounding cfg.r64) (hd : cfg.dup ≤ 0)
    (hsz : ∀ r, T.live r → T.sz r < 2 ^ 31) {order arr : List ι} (ha : Arr T cfg uv order arr)
    {s : RSt ι} (h : NSt T cfg uv T.live order (finalBad T cfg uv) s) :
    Outcome T cfg uv order (keepAll s.R arr) := by
  have hmark : ∀ (l : List ι) (R : RForest ι), l.foldl (fun R r => setFlag R r .valid) R =
      reflag R fun y => if y ∈ l then .valid else (R y).flag := by
    intro l
    induction l with
    | nil => intro R; funext y; simp [reflag]
    | cons x xs ih =>
      intro R
      rw [List.foldl_cons, ih]
      funext y
      by_cases e : y = x
      · subst e; simp [reflag, setFlag]
      · simp [reflag, setFlag, e]
  have hR : (keepAll s.R arr).R = reflag s.R fun y => if y ∈ arr then .valid else (s.R y).flag := hmark arr s.R
  have hk : kept (arr.map fun r => ([r], r)) = arr := by simp [kept, Function.comp_def]
  refine ⟨⟨arr, arr.map fun r => ([r], r), ha, grouping_none hT h64 hd hsz (fun r hr => ((ha.mem r).1 hr).1) ha.nodup,
    ?_, ?_, fun r hr => ?_⟩, ?_, ?_, ?_⟩
  · rw [hk]
    show arr = _
    symm; rw [List.filter_eq_self]; intro a ha; simpa using ha
  · show arr.length = _
    simp
  · rw [hR, hk]
    simp only [reflag]
    by_cases hra : r ∈ arr
    · rw [if_pos hra, if_pos hra]
    · rw [if_neg hra, if_neg hra, h.invalid_iff hr]
      by_contra hn
      exact hra ((ha.mem r).2 ⟨hr, hn⟩)
  · show (arr.map fun r => (s.R r).size).sum = (arr.map T.sz).sum
    congr 1
    exact List.map_congr_left fun r _ => h.shows_.size r
  · rw [hR]
    refine h.shows_.reflag hT (fun r hr => ?_) (fun r hr => ?_)
    · split
      · simp
      · exact h.shows_.flag_ne hT hr
    · rw [if_neg (fun hh => hr ((ha.mem r).1 hh).1)]
  · intro r hr hu
    rw [hR]; exact h.par r hr hu

/-- **Recognition with one thread.** -/
theorem recognizeSerial_spec (hT : T.Ok) (h64 : Rounding cfg.r64) {fuel : Nat} (hf : T.m ≤ fuel) {order : List ι}
    (hnd : order.Nodup) (hreg : ∀ r ∈ order, T.isReg r) (hall : ∀ r, T.live r → r ∈ order) (hR : Shows T R)
    (hfresh : ∀ r, T.live r → (R r).flag = .unknown ∧ (R r).counted = false) (msize exceed : Nat) :
    ∃ out, recognizeSerial cfg fuel order msize exceed R = some out ∧
      Outcome T cfg (decide (0 < cfg.delta)) order out := by
  obtain ⟨s, e1, h1⟩ := selectSerial_spec (cfg := cfg) hT hf hnd hreg hall hR hfresh
  obtain ⟨arr, e2, h2, _⟩ := order_spec hT hnd hreg hall h1 (msize := (reserve msize s.total.toNat exceed).1)
    (by have := reserve_ge msize s.total.toNat exceed; omega)
  obtain ⟨out, e3, h3⟩ := dedup_outcome hT h64 h2 h1
  exact ⟨out, by unfold recognizeSerial; rw [e1]; simp only; rw [e2]; exact e3, h3⟩

/-- **Recognition with 32 threads.** -/
theorem recognizeParallel_spec (hT : T.Ok) (h64 : Rounding cfg.r64) (hsz : ∀ r, T.live r → T.sz r < 2 ^ 31)
    {pidx : ι → Nat} {fuel n : Nat} (hf : T.m ≤ fuel) {regs : Nat → List ι}
    (hnd : ((List.range n).flatMap regs).Nodup)
    (hreg : ∀ r ∈ (List.range n).flatMap regs, T.isReg r) (hall : ∀ r, T.live r → r ∈ (List.range n).flatMap regs)
    (hR : Shows T R)
    (hfresh : ∀ r, T.live r → (R r).flag = .unknown ∧ (R r).counted = false) (msize exceed : Nat) :
    ∃ out, recognizeParallel cfg pidx fuel n regs msize exceed R = some out ∧
      Outcome T cfg true ((List.range n).flatMap regs) out := by
  obtain ⟨s, e1, h1⟩ := selectParallel_spec (cfg := cfg) hT (pidx := pidx) hf hnd hreg hall hR hfresh
  obtain ⟨arr, e2, h2, _⟩ := order_spec hT hnd hreg hall h1.nst (msize := (reserve msize s.total.toNat exceed).1)
    (by have := reserve_ge msize s.total.toNat exceed; omega)
  unfold recognizeParallel
  rw [e1]; simp only; rw [e2]; simp only
  by_cases hd : 0 < cfg.dup
  · rw [if_pos hd]; exact dedup_outcome hT h64 h2 h1.nst
  · rw [if_neg hd]; exact ⟨_, rfl, keepAll_outcome hT h64 (not_lt.1 hd) hsz h2 h1.nst⟩

/-- **Recognition with four threads.** -/
theorem recognizeAccel_spec (hT : T.Ok) (h32 : Rounding cfg.r32) (h64 : Rounding cfg.r64)
    (hsz : ∀ r, T.live r → T.sz r < 2 ^ 31)
    {pidx : ι → Nat} {fuel n : Nat} (hf : T.m ≤ fuel) {regs : Nat → List ι} {cap : Nat → Nat}
    (hnd : ((List.range n).flatMap regs).Nodup)
    (hreg : ∀ r ∈ (List.range n).flatMap regs, T.isReg r) (hall : ∀ r, T.live r → r ∈ (List.range n).flatMap regs)
    (hk : ∀ k < n, ∀ r, T.isReg r → (pidx r = k ↔ r ∈ regs k)) (hcap : ∀ k < n, (regs k).length ≤ cap k)
    (hR : Shows T R)
    (hfresh : ∀ r, T.live r → (R r).flag = .unknown ∧ (R r).counted = false) (msize exceed : Nat) :
    ∃ out, recognizeAccel cfg pidx fuel n cap regs msize exceed R = some out ∧
      Outcome T cfg true ((List.range n).flatMap regs) out := by
  obtain ⟨s, e1, h1⟩ := selectAccel_spec (cfg := cfg) hT h32 hf hnd hreg hall hk hcap hR hfresh
  have hst : startIndex s.lev 256 = s.total := (order_spec hT hnd hreg hall h1.nst (msize := s.total.toNat) (by omega)).choose_spec.2.2.2
  obtain ⟨arr, e2, h2, _⟩ := order_spec hT hnd hreg hall h1.nst
    (msize := (reserve msize (startIndex s.lev 256).toNat exceed).1)
    (by have := reserve_ge msize (startIndex s.lev 256).toNat exceed; omega)
  unfold recognizeAccel
  rw [e1]; simp only; rw [e2]; simp only
  by_cases hd : 0 < cfg.dup
  · rw [if_pos hd]; exact dedup_outcome hT h64 h2 h1.nst
  · rw [if_neg hd]; exact ⟨_, rfl, keepAll_outcome hT h64 (not_lt.1 hd) hsz h2 h1.nst⟩

end Verif.Recog
