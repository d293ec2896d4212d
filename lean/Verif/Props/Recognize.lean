import Verif.Proof.RecogSame
import Verif.Props.Partition
import Mathlib.Tactic.IntervalCases

/-!
# Properties C18 – C23: recognition of stable regions

`Held isReg F fuel T` says: the regions `isReg` in memory are `F`, some of them absorbed by others, and `T` is
the region tree that is read from them.  Building the tree leaves this behind (`held_after_merge`).
`selectSerial`, `selectParallel` and `selectAccel` are the selection with 1, 32 and 4 threads,
`recognizeSerial`, … the whole of recognition.  `Rounding` is what is assumed of floating point rounding.
-/

namespace Verif.Props

open Verif.Spec Verif.Recog
open Verif.Connect (Forest Str forestTree World)
open Verif.Partition

variable {α ι : Type}

/-- A region tree in memory as joining leaves it; `fuel` bounds pointer chases. -/
structure Held (isReg : ι → Prop) (F : Forest ι) (fuel : Nat) (T : RegionTree α ι) : Prop where
  shape : ∃ m, Str isReg (fun r => (F r).gray) F m ∧ m ≤ fuel
  tree : ∃ lab, T = forestTree fuel isReg lab F
  ok : T.Ok

/-- The regions divided into the memory blocks of `n` patches. -/
structure Blocks (isReg : ι → Prop) (pidx : ι → Nat) (n : Nat) (regs : Nat → List ι) : Prop where
  nodup : ∀ k < n, (regs k).Nodup
  mem : ∀ k < n, ∀ r, r ∈ regs k ↔ isReg r ∧ pidx r = k
  lt : ∀ r, isReg r → pidx r < n

variable {isReg : ι → Prop} {F : Forest ι} {fuel : Nat} {T : RegionTree α ι} {pidx : ι → Nat} {n : Nat}
  {regs : Nat → List ι} {cap : Nat → Nat} {cfg : Cfg} {order order' : List ι} {v v' : ι → ℚ} {msize exceed : Nat}

/-- All regions of all blocks. -/
abbrev allRegs (n : Nat) (regs : Nat → List ι) : List ι := (List.range n).flatMap regs

theorem Blocks.all (h : Blocks isReg pidx n regs) : (allRegs n regs).Nodup ∧ ∀ r, r ∈ allRegs n regs ↔ isReg r := by
  constructor
  · rw [List.nodup_flatMap]
    refine ⟨fun k hk => h.nodup k (List.mem_range.1 hk), ?_⟩
    refine List.Nodup.pairwise_of_forall_ne (List.nodup_range) fun a ha b hb hne => ?_
    intro x hx hy
    have h1 := ((h.mem a (List.mem_range.1 ha) x).1 hx).2
    have h2 := ((h.mem b (List.mem_range.1 hb) x).1 hy).2
    exact hne (h1.symm.trans h2)
  · intro r
    rw [List.mem_flatMap]
    constructor
    · rintro ⟨k, hk, hr⟩; exact ((h.mem k (List.mem_range.1 hk) r).1 hr).1
    · intro hr; exact ⟨pidx r, List.mem_range.2 (h.lt r hr), (h.mem _ (h.lt r hr) r).2 ⟨hr, rfl⟩⟩

/-- From `Held` to the facts used in the proofs. -/
theorem Held.use (h : Held isReg F fuel T) : ∃ m, m ≤ fuel ∧ (treeOf T isReg m).Ok ∧
    (∀ v, Shows (treeOf T isReg m) (ofForest F v)) ∧ (∀ r, T.isReg r → isReg r) ∧
    ∀ v r, T.isReg r → (ofForest F v r).flag = .unknown ∧ (ofForest F v r).counted = false := by
  obtain ⟨m, hS, hm⟩ := h.shape
  obtain ⟨lab, rfl⟩ := h.tree
  have hreg : ∀ r, (forestTree fuel isReg lab F).isReg r → isReg r := fun r hr => hr.1
  exact ⟨m, hm, treeOf_ok h.ok hreg, shows_forest hS hm, hreg, fun v r hr => ⟨by simp [ofForest, hr.2], rfl⟩⟩

section
variable [DecidableEq ι]

private theorem serial (h : Held isReg F fuel T) (hnd : order.Nodup) (hord : ∀ r, r ∈ order ↔ isReg r) (v : ι → ℚ) :
    ∃ m s, selectSerial cfg fuel order (ofForest F v) = some s ∧ (∀ r, T.isReg r → isReg r) ∧ (treeOf T isReg m).Ok ∧
      NSt (treeOf T isReg m) cfg (decide (0 < cfg.delta)) T.isReg order
        (finalBad (treeOf T isReg m) cfg (decide (0 < cfg.delta))) s := by
  obtain ⟨m, hm, hT, hR, hreg, hfresh⟩ := h.use
  obtain ⟨s, e, h1⟩ := selectSerial_spec (cfg := cfg) hT hm hnd (fun r hr => (hord r).1 hr)
    (fun r hr => (hord r).2 (hreg r hr)) (hR v) (hfresh v)
  exact ⟨m, s, e, hreg, hT, h1⟩

private theorem parallel (h : Held isReg F fuel T) (hB : Blocks isReg pidx n regs) (v : ι → ℚ) :
    ∃ m s, selectParallel cfg pidx fuel n regs (ofForest F v) = some s ∧ (∀ r, T.isReg r → isReg r) ∧
      (treeOf T isReg m).Ok ∧
      NSt (treeOf T isReg m) cfg true T.isReg (allRegs n regs) (finalBad (treeOf T isReg m) cfg true) s := by
  obtain ⟨m, hm, hT, hR, hreg, hfresh⟩ := h.use
  obtain ⟨s, e, h1⟩ := selectParallel_spec (cfg := cfg) (pidx := pidx) hT hm hB.all.1 (fun r hr => (hB.all.2 r).1 hr)
    (fun r hr => (hB.all.2 r).2 (hreg r hr)) (hR v) (hfresh v)
  exact ⟨m, s, e, hreg, hT, h1.nst⟩

theorem accel (h : Held isReg F fuel T) (hB : Blocks isReg pidx n regs)
    (hcap : ∀ k < n, (regs k).length ≤ cap k) (h32 : Rounding cfg.r32) (v : ι → ℚ) :
    ∃ m s, selectAccel cfg pidx fuel n cap regs (ofForest F v) = some s ∧ (∀ r, T.isReg r → isReg r) ∧
      (treeOf T isReg m).Ok ∧
      NSt (treeOf T isReg m) cfg true T.isReg (allRegs n regs) (finalBad (treeOf T isReg m) cfg true) s := by
  obtain ⟨m, hm, hT, hR, hreg, hfresh⟩ := h.use
  obtain ⟨s, e, h1⟩ := selectAccel_spec (cfg := cfg) (pidx := pidx) (cap := cap) hT h32 hm hB.all.1 (fun r hr => (hB.all.2 r).1 hr)
    (fun r hr => (hB.all.2 r).2 (hreg r hr)) (fun k hk r hr => by rw [hB.mem k hk]; exact ⟨fun e => ⟨hr, e⟩, fun e => e.2⟩)
    hcap (hR v) (hfresh v)
  exact ⟨m, s, e, hreg, hT, h1.nst⟩

/-! ### C18 -/

omit [DecidableEq ι] in
private theorem holds_of {m : Nat} {dom : ι → Prop} {l : List ι} {bad : ι → Prop} {s : RSt ι} (h : T.Ok)
    (hreg : ∀ r, T.isReg r → isReg r) (h32 : Rounding cfg.r32)
    (hs : NSt (treeOf T isReg m) cfg true T.isReg l bad s) : ∀ r, T.isReg r →
      ∃ x, Stability T (limits cfg) r x ∧ Holds x (s.R r).var := by
  intro r hr
  rw [hs.var rfl r hr]
  exact vval_stability h hreg h32 hr

/-- **C18** One thread: after selection `m_var` of every region is its stability value. -/
theorem C18_value_serial (h : Held isReg F fuel T) (hnd : order.Nodup) (hord : ∀ r, r ∈ order ↔ isReg r)
    (h32 : Rounding cfg.r32) (hd : 0 < cfg.delta) :
    ∃ s, selectSerial cfg fuel order (ofForest F v) = some s ∧
      ∀ r, T.isReg r → ∃ x, Stability T (limits cfg) r x ∧ Holds x (s.R r).var := by
  obtain ⟨m, s, e, hreg, _, h1⟩ := serial (cfg := cfg) h hnd hord v
  rw [decide_eq_true hd] at h1
  exact ⟨s, e, holds_of (dom := T.isReg) h.ok hreg h32 h1⟩

/-- **C18** The same for 32 threads. -/
theorem C18_value_parallel (h : Held isReg F fuel T) (hB : Blocks isReg pidx n regs) (h32 : Rounding cfg.r32) :
    ∃ s, selectParallel cfg pidx fuel n regs (ofForest F v) = some s ∧
      ∀ r, T.isReg r → ∃ x, Stability T (limits cfg) r x ∧ Holds x (s.R r).var := by
  obtain ⟨m, s, e, hreg, _, h1⟩ := parallel (cfg := cfg) h hB v
  exact ⟨s, e, holds_of (dom := T.isReg) h.ok hreg h32 h1⟩

/-- **C18** The same for 4 threads; `cap k` is the number of heap cells of patch `k`. -/
theorem C18_value_four (h : Held isReg F fuel T) (hB : Blocks isReg pidx n regs)
    (hcap : ∀ k < n, (regs k).length ≤ cap k) (h32 : Rounding cfg.r32) :
    ∃ s, selectAccel cfg pidx fuel n cap regs (ofForest F v) = some s ∧
      ∀ r, T.isReg r → ∃ x, Stability T (limits cfg) r x ∧ Holds x (s.R r).var := by
  obtain ⟨m, s, e, hreg, _, h1⟩ := accel (cfg := cfg) h hB hcap h32 v
  exact ⟨s, e, holds_of (dom := T.isReg) h.ok hreg h32 h1⟩

omit [DecidableEq ι] in
/-- **C18** A region has exactly one stability value. -/
theorem C18_value_exists_unique (h : T.Ok) (h32 : Rounding cfg.r32) {r : ι} (hr : T.isReg r) :
    ∃! x, Stability T (limits cfg) r x := by
  obtain ⟨x, hx, _⟩ := vval_stability (m := 0) h (fun _ => id) h32 (cfg := cfg) hr
  exact ⟨x, hx, fun y hy => stability_unique h hr hy hx⟩

omit [DecidableEq ι] in
/-- **C18** The value is not available exactly when the largest ancestor-or-self within `delta` levels is the
whole image and not at the last of these levels. -/
theorem C18_not_available_iff (h : T.Ok) {L : Limits} {r s : ι} (hr : T.isReg r)
    (hs : Widest T (T.gray r + L.delta) r s) :
    Stability T L r none ↔ T.parent s = none ∧ (T.gray s : Int) ≠ T.gray r + L.delta := by
  constructor
  · rintro ⟨s', hs', ⟨_, e⟩ | ⟨e, _⟩⟩
    · simp at e
    · have hT := treeOf_ok (T := T) (isReg := T.isReg) (m := 0) h (fun _ => id)
      have := Wid.unique hT hr (wid_iff.2 hs) (wid_iff.2 hs')
      rw [this]; exact e
  · intro e; exact ⟨s, hs, .inr ⟨e, rfl⟩⟩

/-! ### C20, C21 -/

omit [DecidableEq ι] in
private theorem flags_of {m : Nat} {l : List ι} {s : RSt ι} (h : T.Ok)
    (hreg : ∀ r, T.isReg r → isReg r) (h32 : Rounding cfg.r32) (hst : -1 ≤ cfg.stable)
    (hs : NSt (treeOf T isReg m) cfg true T.isReg l (finalBad (treeOf T isReg m) cfg true) s) {r : ι} (hr : T.isReg r) :
    ((s.R r).flag = .unknown ↔ Selected T (limits cfg) r) ∧ ((s.R r).flag = .invalid ↔ ¬ Selected T (limits cfg) r) := by
  have h1 := selected_iff (m := m) h hreg h32 hst (r := r)
  rw [hs.unknown_iff hr, hs.invalid_iff hr, ← h1]
  simp only [hr, true_and, not_not]

/-- **C20** One thread, regions visited in any order: a region stays a candidate exactly if it is selected by
the specification: within the limits and, with suppression on, not less stable by more than the threshold than
a child one level below or the parent one level above. -/
theorem C20_serial_selects_exactly (h : Held isReg F fuel T) (hnd : order.Nodup) (hord : ∀ r, r ∈ order ↔ isReg r)
    (h32 : Rounding cfg.r32) (hst : -1 ≤ cfg.stable) (hd : 0 < cfg.delta) :
    ∃ s, selectSerial cfg fuel order (ofForest F v) = some s ∧
      ∀ r, T.isReg r → ((s.R r).flag = .unknown ↔ Selected T (limits cfg) r) ∧
        ((s.R r).flag = .invalid ↔ ¬ Selected T (limits cfg) r) := by
  obtain ⟨m, s, e, hreg, _, h1⟩ := serial (cfg := cfg) h hnd hord v
  rw [decide_eq_true hd] at h1
  exact ⟨s, e, fun r hr => flags_of h.ok hreg h32 hst h1 hr⟩

/-- **C20** One thread, every `delta`: two visiting orders leave the same candidates. -/
theorem C20_order_irrelevant (h : Held isReg F fuel T) (hnd : order.Nodup) (hord : ∀ r, r ∈ order ↔ isReg r)
    (hnd' : order'.Nodup) (hord' : ∀ r, r ∈ order' ↔ isReg r) :
    ∃ s s', selectSerial cfg fuel order (ofForest F v) = some s ∧
      selectSerial cfg fuel order' (ofForest F v') = some s' ∧
      ∀ r, T.isReg r → (s.R r).flag = (s'.R r).flag ∧ (0 < cfg.delta → (s.R r).var = (s'.R r).var) := by
  obtain ⟨m, hm, hT, hR, hreg, hfresh⟩ := h.use
  obtain ⟨s, e, h1⟩ := selectSerial_spec (cfg := cfg) hT hm hnd (fun r hr => (hord r).1 hr)
    (fun r hr => (hord r).2 (hreg r hr)) (hR v) (hfresh v)
  obtain ⟨s', e', h1'⟩ := selectSerial_spec (cfg := cfg) hT hm hnd' (fun r hr => (hord' r).1 hr)
    (fun r hr => (hord' r).2 (hreg r hr)) (hR v') (hfresh v')
  refine ⟨s, s', e, e', fun r hr => ⟨?_, fun hd => ?_⟩⟩
  · rcases h1.flag r hr with ⟨a, b⟩ | ⟨a, b⟩ <;> rcases h1'.flag r hr with ⟨a', b'⟩ | ⟨a', b'⟩
    · rw [a, a']
    · exact absurd b' b
    · exact absurd b b'
    · rw [a, a']
  · rw [h1.var (decide_eq_true hd) r hr, h1'.var (decide_eq_true hd) r hr]

/-- **C20** With 32 threads. -/
theorem C20_parallel_selects_exactly (h : Held isReg F fuel T) (hB : Blocks isReg pidx n regs)
    (h32 : Rounding cfg.r32) (hst : -1 ≤ cfg.stable) :
    ∃ s, selectParallel cfg pidx fuel n regs (ofForest F v) = some s ∧
      ∀ r, T.isReg r → ((s.R r).flag = .unknown ↔ Selected T (limits cfg) r) ∧
        ((s.R r).flag = .invalid ↔ ¬ Selected T (limits cfg) r) := by
  obtain ⟨m, s, e, hreg, _, h1⟩ := parallel (cfg := cfg) h hB v
  exact ⟨s, e, fun r hr => flags_of h.ok hreg h32 hst h1 hr⟩

/-- **C20** With 4 threads. -/
theorem C20_four_selects_exactly (h : Held isReg F fuel T) (hB : Blocks isReg pidx n regs)
    (hcap : ∀ k < n, (regs k).length ≤ cap k) (h32 : Rounding cfg.r32) (hst : -1 ≤ cfg.stable) :
    ∃ s, selectAccel cfg pidx fuel n cap regs (ofForest F v) = some s ∧
      ∀ r, T.isReg r → ((s.R r).flag = .unknown ↔ Selected T (limits cfg) r) ∧
        ((s.R r).flag = .invalid ↔ ¬ Selected T (limits cfg) r) := by
  obtain ⟨m, s, e, hreg, _, h1⟩ := accel (cfg := cfg) h hB hcap h32 v
  exact ⟨s, e, fun r hr => flags_of h.ok hreg h32 hst h1 hr⟩

end

section
variable [DecidableEq ι] {ι₁ : Type} [DecidableEq ι₁] {px : Finset α} {isReg₁ : ι₁ → Prop} {F₁ : Forest ι₁} {fuel₁ : Nat}
  {T₁ : RegionTree α ι₁} {order₁ : List ι₁} {v₁ : ι₁ → ℚ} {f : ι₁ → ι}

/-- **C21** The same tree held once by a single thread and once in `n` blocks: selection with 1 and with 32
threads takes corresponding regions and computes the same values. -/
theorem C21_one_and_32_agree (h : Held isReg F fuel T) (hB : Blocks isReg pidx n regs)
    (h₁ : Held isReg₁ F₁ fuel₁ T₁) (hnd : order₁.Nodup) (hord : ∀ r, r ∈ order₁ ↔ isReg₁ r)
    (hS : SameTree px T₁ T f) (h32 : Rounding cfg.r32) (hst : -1 ≤ cfg.stable) (hd : 1 ≤ cfg.delta) :
    ∃ s₁ s, selectSerial cfg fuel₁ order₁ (ofForest F₁ v₁) = some s₁ ∧
      selectParallel cfg pidx fuel n regs (ofForest F v) = some s ∧
      ∀ r, T₁.isReg r → (s.R (f r)).flag = (s₁.R r).flag ∧ (s.R (f r)).var = (s₁.R r).var := by
  obtain ⟨m₁, s₁, e₁, hreg₁, _, n₁⟩ := serial (cfg := cfg) h₁ hnd hord v₁
  obtain ⟨m, s, e, hreg, _, n₂⟩ := parallel (cfg := cfg) h hB v
  rw [decide_eq_true (by omega : 0 < cfg.delta)] at n₁
  refine ⟨s₁, s, e₁, e, fun r hr => ?_⟩
  have hfr := hS.reg r hr
  obtain ⟨a1, a2⟩ := flags_of h₁.ok hreg₁ h32 hst n₁ hr
  obtain ⟨b1, b2⟩ := flags_of h.ok hreg h32 hst n₂ hfr
  have hs := same_selected hS h₁.ok h.ok h32 hr (cfg := cfg)
  constructor
  · by_cases hsel : Selected T₁ (limits cfg) r
    · rw [a1.2 hsel, b1.2 (hs.2 hsel)]
    · rw [a2.2 hsel, b2.2 (fun hc => hsel (hs.1 hc))]
  · obtain ⟨x, hx, hx'⟩ := holds_of (dom := T₁.isReg) h₁.ok hreg₁ h32 n₁ r hr
    obtain ⟨y, hy, hy'⟩ := holds_of (dom := T.isReg) h.ok hreg h32 n₂ (f r) hfr
    have : y = x := stability_unique h.ok hfr hy (same_stability_mp hS h₁.ok hr hx)
    subst this
    rcases hx' with ⟨e1, e2⟩ | ⟨e1, e2⟩ <;> rcases hy' with ⟨e3, e4⟩ | ⟨e3, e4⟩
    · rw [e2, e4]
    · rw [e1] at e3; simp at e3
    · rw [e1] at e3; simp at e3
    · rw [e1] at e3; exact (Option.some.inj e3).symm

/-- **C21** The same for 1 and 4 threads. -/
theorem C21_one_and_4_agree (h : Held isReg F fuel T) (hB : Blocks isReg pidx n regs)
    (hcap : ∀ k < n, (regs k).length ≤ cap k)
    (h₁ : Held isReg₁ F₁ fuel₁ T₁) (hnd : order₁.Nodup) (hord : ∀ r, r ∈ order₁ ↔ isReg₁ r)
    (hS : SameTree px T₁ T f) (h32 : Rounding cfg.r32) (hst : -1 ≤ cfg.stable) (hd : 1 ≤ cfg.delta) :
    ∃ s₁ s, selectSerial cfg fuel₁ order₁ (ofForest F₁ v₁) = some s₁ ∧
      selectAccel cfg pidx fuel n cap regs (ofForest F v) = some s ∧
      ∀ r, T₁.isReg r → (s.R (f r)).flag = (s₁.R r).flag ∧ (s.R (f r)).var = (s₁.R r).var := by
  obtain ⟨m₁, s₁, e₁, hreg₁, _, n₁⟩ := serial (cfg := cfg) h₁ hnd hord v₁
  obtain ⟨m, s, e, hreg, _, n₂⟩ := accel (cfg := cfg) h hB hcap h32 v
  rw [decide_eq_true (by omega : 0 < cfg.delta)] at n₁
  refine ⟨s₁, s, e₁, e, fun r hr => ?_⟩
  have hfr := hS.reg r hr
  obtain ⟨a1, a2⟩ := flags_of h₁.ok hreg₁ h32 hst n₁ hr
  obtain ⟨b1, b2⟩ := flags_of h.ok hreg h32 hst n₂ hfr
  have hs := same_selected hS h₁.ok h.ok h32 hr (cfg := cfg)
  constructor
  · by_cases hsel : Selected T₁ (limits cfg) r
    · rw [a1.2 hsel, b1.2 (hs.2 hsel)]
    · rw [a2.2 hsel, b2.2 (fun hc => hsel (hs.1 hc))]
  · obtain ⟨x, hx, hx'⟩ := holds_of (dom := T₁.isReg) h₁.ok hreg₁ h32 n₁ r hr
    obtain ⟨y, hy, hy'⟩ := holds_of (dom := T.isReg) h.ok hreg h32 n₂ (f r) hfr
    have : y = x := stability_unique h.ok hfr hy (same_stability_mp hS h₁.ok hr hx)
    subst this
    rcases hx' with ⟨e1, e2⟩ | ⟨e1, e2⟩ <;> rcases hy' with ⟨e3, e4⟩ | ⟨e3, e4⟩
    · rw [e2, e4]
    · rw [e1] at e3; simp at e3
    · rw [e1] at e3; simp at e3
    · rw [e1] at e3; exact (Option.some.inj e3).symm

end

/-! ### C22 -/

/-- `arr` lists the candidates left by a selection: each once, level by level, within a level in the order
of `order`. -/
structure Ordered (T : RegionTree α ι) (order : List ι) (s : RSt ι) (arr : List ι) : Prop where
  mem : ∀ r, r ∈ arr ↔ T.isReg r ∧ (s.R r).flag = .unknown
  nodup : arr.Nodup
  sorted : arr.Pairwise fun x y => T.gray x ≤ T.gray y
  stable : ∀ g, (arr.filter fun r => T.gray r = g).Sublist order
  ancestors_later : arr.Pairwise fun x y => ¬ T.Above y x

private theorem ordered_of {m : Nat} (hT : (treeOf T isReg m).Ok) (hreg : ∀ r, T.isReg r → isReg r) {uv : Bool} {s : RSt ι}
    (hs : NSt (treeOf T isReg m) cfg uv T.isReg order (finalBad (treeOf T isReg m) cfg uv) s) (hnd : order.Nodup)
    (hord : ∀ r, r ∈ order ↔ isReg r) [DecidableEq ι] {k : Nat} (hk : s.total ≤ (k : Int)) :
    ∃ arr, grayOrder s order k = some arr ∧ Ordered T order s arr := by
  obtain ⟨arr, e, hA, hmem, _⟩ := order_spec hT hnd (fun r hr => (hord r).1 hr) (fun r hr => (hord r).2 (hreg r hr)) hs hk
  refine ⟨arr, e, fun r => ?_, hA.nodup, hA.sorted, fun g => ?_, ?_⟩
  · rw [hA.mem]
    constructor
    · rintro ⟨h1, h2⟩; exact ⟨h1, (hs.unknown_iff h1).2 h2⟩
    · rintro ⟨h1, h2⟩; exact ⟨h1, (hs.unknown_iff h1).1 h2⟩
  · obtain ⟨p, _, h2⟩ := hA.stable g
    have : (arr.filter fun r => T.gray r = g) = order.filter p := h2
    rw [this]; exact List.filter_sublist
  · have hl : ∀ r ∈ arr, T.isReg r := fun r hr => ((hA.mem r).1 hr).1
    refine List.Pairwise.imp_of_mem ?_ hA.sorted
    intro x y hx hy hxy hab
    have := (above_facts hT (hl y hy) hab).2.1
    simp only [treeOf] at this hxy
    omega

section
variable [DecidableEq ι]

/-- **C22** One thread: the order array is filled without leaving it. -/
theorem C22_order_serial (h : Held isReg F fuel T) (hnd : order.Nodup) (hord : ∀ r, r ∈ order ↔ isReg r)
    (msize exceed : Nat) :
    ∃ s arr, selectSerial cfg fuel order (ofForest F v) = some s ∧
      grayOrder s order (reserve msize s.total.toNat exceed).1 = some arr ∧ Ordered T order s arr := by
  obtain ⟨m, s, e, hreg, hT, h1⟩ := serial (cfg := cfg) h hnd hord v
  obtain ⟨arr, e2, h2⟩ := ordered_of hT hreg h1 hnd hord (k := (reserve msize s.total.toNat exceed).1)
    (by have := reserve_ge msize s.total.toNat exceed; omega)
  exact ⟨s, arr, e, e2, h2⟩

/-- **C22** 32 threads. -/
theorem C22_order_parallel (h : Held isReg F fuel T) (hB : Blocks isReg pidx n regs) (msize exceed : Nat) :
    ∃ s arr, selectParallel cfg pidx fuel n regs (ofForest F v) = some s ∧
      grayOrder s (allRegs n regs) (reserve msize s.total.toNat exceed).1 = some arr ∧
      Ordered T (allRegs n regs) s arr := by
  obtain ⟨m, s, e, hreg, hT, h1⟩ := parallel (cfg := cfg) h hB v
  obtain ⟨arr, e2, h2⟩ := ordered_of hT hreg h1 hB.all.1 hB.all.2 (k := (reserve msize s.total.toNat exceed).1)
    (by have := reserve_ge msize s.total.toNat exceed; omega)
  exact ⟨s, arr, e, e2, h2⟩

/-- **C22** 4 threads; here the number of candidates is read from the prefix sums. -/
theorem C22_order_four (h : Held isReg F fuel T) (hB : Blocks isReg pidx n regs)
    (hcap : ∀ k < n, (regs k).length ≤ cap k) (h32 : Rounding cfg.r32) (msize exceed : Nat) :
    ∃ s arr, selectAccel cfg pidx fuel n cap regs (ofForest F v) = some s ∧
      grayOrder s (allRegs n regs) (reserve msize (startIndex s.lev 256).toNat exceed).1 = some arr ∧
      Ordered T (allRegs n regs) s arr := by
  obtain ⟨m, s, e, hreg, hT, h1⟩ := accel (cfg := cfg) h hB hcap h32 v
  have hst : startIndex s.lev 256 = s.total := (order_spec hT hB.all.1 (fun r hr => (hB.all.2 r).1 hr)
    (fun r hr => (hB.all.2 r).2 (hreg r hr)) h1 (msize := s.total.toNat) (by omega)).choose_spec.2.2.2
  obtain ⟨arr, e2, h2⟩ := ordered_of hT hreg h1 hB.all.1 hB.all.2
    (k := (reserve msize (startIndex s.lev 256).toNat exceed).1)
    (by have := reserve_ge msize (startIndex s.lev 256).toNat exceed; omega)
  exact ⟨s, arr, e, e2, h2⟩

end

/-! ### C19, C23 -/

/-- What recognition returns: the candidates `arr` were divided into groups `gs` of nested near-equal regions
and from each group one member is reported. -/
structure Result (T : RegionTree α ι) (cfg : Cfg) (candidate : ι → Prop) (out : Recognized ι) (arr : List ι)
    (gs : List (List ι × ι)) : Prop where
  /-- `arr` lists the candidates, each once, no region after one containing it -/
  mem : ∀ r, r ∈ arr ↔ candidate r
  nodup : arr.Nodup
  order : arr.Pairwise fun x y => ¬ T.Above y x
  /-- the groups -/
  groups : Grouping T.Above (Near T cfg.maxPoint cfg.dup cfg.r64) arr gs
  /-- every candidate is in exactly one group -/
  cover : (gs.flatMap Prod.fst).Perm arr
  /-- a group is nested -/
  nested : ∀ x ∈ gs, x.1.Pairwise T.Above
  /-- of every group exactly the kept member is reported -/
  one : ∀ x ∈ gs, ∀ r ∈ x.1, r ∈ out.reported ↔ r = x.2
  kept_mem : ∀ x ∈ gs, x.2 ∈ x.1
  /-- nothing else is reported, nothing twice, and the number of regions is the number of groups -/
  sub : ∀ r ∈ out.reported, r ∈ arr
  rep_nodup : out.reported.Nodup
  count : out.reported.length = gs.length
  /-- the final flags say which regions are reported -/
  flags : ∀ r, T.isReg r → ((out.R r).flag = .valid ∧ r ∈ out.reported ∨ (out.R r).flag = .invalid ∧ r ∉ out.reported)
  pixels : out.pixels = (out.reported.map T.size).sum

section
variable [DecidableEq ι]

theorem result_gen {m : Nat} (hT : (treeOf T isReg m).Ok) {out : Recognized ι} {cand : ι → Prop} {arr : List ι}
    {gs : List (List ι × ι)} (hl : ∀ r ∈ arr, T.isReg r) (hmem : ∀ r, r ∈ arr ↔ cand r) (hnd : arr.Nodup)
    (hso : arr.Pairwise fun x y => T.gray x ≤ T.gray y)
    (hG : Grouping (above (treeOf T isReg m)) (near (treeOf T isReg m) cfg) arr gs)
    (hrm : ∀ r, r ∈ out.reported ↔ r ∈ kept gs) (hrn : out.reported.Nodup) (hlen : out.reported.length = gs.length)
    (hfl : ∀ r, T.isReg r → (out.R r).flag = if r ∈ kept gs then .valid else .invalid)
    (hpx : out.pixels = (out.reported.map T.size).sum) : Result T cfg cand out arr gs := by
  have hord : arr.Pairwise fun x y => ¬ T.Above y x := by
    refine List.Pairwise.imp_of_mem ?_ hso
    intro x y hx hy hxy hab
    have := (above_facts hT (hl y hy) hab).2.1
    simp only [treeOf] at this hxy
    omega
  have hperm := hG.perm hnd
  have hnd' := hperm.nodup_iff.2 hnd
  have hone : ∀ x ∈ gs, ∀ y ∈ gs, ∀ r, r ∈ x.1 → r ∈ y.1 → x = y := by
    rw [List.nodup_flatMap] at hnd'
    intro x hx y hy r hrx hry
    obtain ⟨i, hi, rfl⟩ := List.getElem_of_mem hx
    obtain ⟨j, hj, rfl⟩ := List.getElem_of_mem hy
    have hp := List.pairwise_iff_getElem.1 hnd'.2
    rcases lt_trichotomy i j with hij | rfl | hij
    · exact absurd hry (hp i j hi hj hij hrx)
    · rfl
    · exact absurd hrx (hp j i hj hi hij hry)
  refine ⟨hmem, hnd, hord, hG, hperm, ?_, fun x hx r hr => ?_, hG.mem, ?_, hrn, hlen, ?_, hpx⟩
  · exact Grouping.nested (fun a b c h1 h2 => h1.trans h2) (fun r a b h1 h2 => above_total (T := treeOf T isReg m) h1 h2)
      hG hnd hord
  · rw [hrm]
    constructor
    · intro hk
      obtain ⟨y, hy, e⟩ := List.mem_map.1 hk
      have := hone x hx y hy r hr (by rw [← e]; exact hG.mem y hy)
      rw [this, e]
    · rintro rfl; exact List.mem_map.2 ⟨x, hx, rfl⟩
  · intro r hr; rw [hrm] at hr; exact hG.kept_sub hnd r hr
  · intro r hr
    rw [hfl r hr, hrm]
    by_cases hk : r ∈ kept gs
    · exact .inl ⟨if_pos hk, hk⟩
    · exact .inr ⟨if_neg hk, hk⟩

theorem result_of {m : Nat} {uv : Bool} (hT : (treeOf T isReg m).Ok) {out : Recognized ι}
    (hO : Outcome (treeOf T isReg m) cfg uv order out) :
    ∃ arr gs, Result T cfg (fun r => T.isReg r ∧ ¬ finalBad (treeOf T isReg m) cfg uv r) out arr gs := by
  obtain ⟨arr, gs, hA, hG, hrep, hlen, hfl⟩ := hO.found
  refine ⟨arr, gs, result_gen hT (fun r hr => ((hA.mem r).1 hr).1) hA.mem hA.nodup hA.sorted hG (fun r => ?_) ?_ hlen hfl
    hO.pixels⟩
  · rw [hrep, List.mem_filter, decide_eq_true_eq]
    exact ⟨fun h => h.2, fun h => ⟨hG.kept_sub hA.nodup r h, h⟩⟩
  · rw [hrep]; exact hA.nodup.filter _

/-- What recognition reports is within the limits. -/
def WithinLimits (T : RegionTree α ι) (L : Limits) (r : ι) : Prop :=
  T.isReg r ∧ L.minPoint ≤ (T.size r : Int) ∧ (T.size r : Int) ≤ L.maxPoint ∧ T.parent r ≠ none

/-- **C23** One thread, `delta` at least 1: the candidates are the selected regions. -/
theorem C23_serial (h : Held isReg F fuel T) (hnd : order.Nodup) (hord : ∀ r, r ∈ order ↔ isReg r)
    (h32 : Rounding cfg.r32) (h64 : Rounding cfg.r64) (hst : -1 ≤ cfg.stable) (hd : 1 ≤ cfg.delta) :
    ∃ out arr gs, recognizeSerial cfg fuel order msize exceed (ofForest F v) = some out ∧
      Result T cfg (Selected T (limits cfg)) out arr gs := by
  obtain ⟨m, hm, hT, hR, hreg, hfresh⟩ := h.use
  obtain ⟨out, e, hO⟩ := recognizeSerial_spec (cfg := cfg) hT h64 hm hnd (fun r hr => (hord r).1 hr)
    (fun r hr => (hord r).2 (hreg r hr)) (hR v) (hfresh v) msize exceed
  rw [decide_eq_true (by omega : 0 < cfg.delta)] at hO
  obtain ⟨arr, gs, hr⟩ := result_of hT hO
  have : (fun r => T.isReg r ∧ ¬ finalBad (treeOf T isReg m) cfg true r) = Selected T (limits cfg) :=
    funext fun r => propext (selected_iff h.ok hreg h32 hst)
  rw [this] at hr
  exact ⟨out, arr, gs, e, hr⟩

/-- **C23** One thread, `delta` not positive: the candidates are all regions within the size limits. -/
theorem C23_serial_no_delta (h : Held isReg F fuel T) (hnd : order.Nodup) (hord : ∀ r, r ∈ order ↔ isReg r)
    (h64 : Rounding cfg.r64) (hd : cfg.delta ≤ 0) :
    ∃ out arr gs, recognizeSerial cfg fuel order msize exceed (ofForest F v) = some out ∧
      Result T cfg (WithinLimits T (limits cfg)) out arr gs := by
  obtain ⟨m, hm, hT, hR, hreg, hfresh⟩ := h.use
  obtain ⟨out, e, hO⟩ := recognizeSerial_spec (cfg := cfg) hT h64 hm hnd (fun r hr => (hord r).1 hr)
    (fun r hr => (hord r).2 (hreg r hr)) (hR v) (hfresh v) msize exceed
  rw [decide_eq_false (by omega : ¬ 0 < cfg.delta)] at hO
  obtain ⟨arr, gs, hr⟩ := result_of hT hO
  have : (fun r => T.isReg r ∧ ¬ finalBad (treeOf T isReg m) cfg false r) = WithinLimits T (limits cfg) := by
    funext r
    refine propext (and_congr_right fun _ => ?_)
    simp only [finalBad, pass1, Bool.false_eq_true, false_and, or_false, not_not, false_implies, true_and]
    rfl
  rw [this] at hr
  exact ⟨out, arr, gs, e, hr⟩

/-- **C23** 32 threads. -/
theorem C23_parallel (h : Held isReg F fuel T) (hB : Blocks isReg pidx n regs)
    (h32 : Rounding cfg.r32) (h64 : Rounding cfg.r64) (hst : -1 ≤ cfg.stable) (hsz : ∀ r, T.isReg r → T.size r < 2 ^ 31) :
    ∃ out arr gs, recognizeParallel cfg pidx fuel n regs msize exceed (ofForest F v) = some out ∧
      Result T cfg (Selected T (limits cfg)) out arr gs := by
  obtain ⟨m, hm, hT, hR, hreg, hfresh⟩ := h.use
  obtain ⟨out, e, hO⟩ := recognizeParallel_spec (cfg := cfg) (pidx := pidx) hT h64 hsz hm hB.all.1
    (fun r hr => (hB.all.2 r).1 hr) (fun r hr => (hB.all.2 r).2 (hreg r hr)) (hR v) (hfresh v) msize exceed
  obtain ⟨arr, gs, hr⟩ := result_of hT hO
  have : (fun r => T.isReg r ∧ ¬ finalBad (treeOf T isReg m) cfg true r) = Selected T (limits cfg) :=
    funext fun r => propext (selected_iff h.ok hreg h32 hst)
  rw [this] at hr
  exact ⟨out, arr, gs, e, hr⟩

/-- **C23** 4 threads. -/
theorem C23_four (h : Held isReg F fuel T) (hB : Blocks isReg pidx n regs)
    (hcap : ∀ k < n, (regs k).length ≤ cap k)
    (h32 : Rounding cfg.r32) (h64 : Rounding cfg.r64) (hst : -1 ≤ cfg.stable) (hsz : ∀ r, T.isReg r → T.size r < 2 ^ 31) :
    ∃ out arr gs, recognizeAccel cfg pidx fuel n cap regs msize exceed (ofForest F v) = some out ∧
      Result T cfg (Selected T (limits cfg)) out arr gs := by
  obtain ⟨m, hm, hT, hR, hreg, hfresh⟩ := h.use
  obtain ⟨out, e, hO⟩ := recognizeAccel_spec (cfg := cfg) (pidx := pidx) (cap := cap) hT h32 h64 hsz hm hB.all.1
    (fun r hr => (hB.all.2 r).1 hr) (fun r hr => (hB.all.2 r).2 (hreg r hr))
    (fun k hk r hr => by rw [hB.mem k hk]; exact ⟨fun e => ⟨hr, e⟩, fun e => e.2⟩) hcap (hR v) (hfresh v) msize exceed
  obtain ⟨arr, gs, hr⟩ := result_of hT hO
  have : (fun r => T.isReg r ∧ ¬ finalBad (treeOf T isReg m) cfg true r) = Selected T (limits cfg) :=
    funext fun r => propext (selected_iff h.ok hreg h32 hst)
  rw [this] at hr
  exact ⟨out, arr, gs, e, hr⟩

omit [DecidableEq ι] in
/-- **C23** With a threshold that is not positive every candidate is reported. -/
theorem C23_no_threshold {P : ι → Prop} {out : Recognized ι} {arr : List ι} {gs : List (List ι × ι)}
    (hT : T.Ok) (hP : ∀ r, P r → T.isReg r) (hR : Result T cfg P out arr gs) (h64 : Rounding cfg.r64)
    (hsz : ∀ r, T.isReg r → T.size r < 2 ^ 31) (hd : cfg.dup ≤ 0) : ∀ r, P r → r ∈ out.reported := by
  intro r hr
  have hmem := (hR.mem r).2 hr
  obtain ⟨x, hx, hrx⟩ := List.mem_flatMap.1 (hR.cover.mem_iff.2 hmem)
  obtain ⟨r0, A, B, e1, e2, hA, _, hB⟩ := hR.groups.middle x hx
  have hnone : A = [] := by
    rw [List.eq_nil_iff_forall_not_mem]
    intro a ha
    have hr0 : T.isReg r0 := hP r0 ((hR.mem r0).1 (hR.cover.mem_iff.1
      (List.mem_flatMap.2 ⟨x, hx, by rw [e1]; simp⟩)))
    obtain ⟨h1, h2⟩ := hA a ha
    have hTO := treeOf_ok (T := T) (isReg := T.isReg) (m := 0) hT (fun _ => id)
    have h3 : T.size r0 < T.size a := (above_facts hTO hr0 h1).2.2
    have h4 := h64.pos (T.size a - T.size r0) (T.size r0) (by omega) (hT.size_pos r0 hr0) (hsz r0 hr0)
    have e : (((T.size a : Int) - (T.size r0 : Int) : Int) : ℚ) = ((T.size a - T.size r0 : Nat) : ℚ) := by
      rw [Nat.cast_sub (by omega)]; push_cast; rfl
    have h5 := h2.2
    rw [e] at h5
    have h6 : (0 : ℚ) < cfg.dup := lt_of_lt_of_le h4 (by simpa using h5)
    linarith
  rw [hnone, hB hnone] at e1
  rw [hnone] at e2
  simp at e1 e2
  rw [e1, List.mem_singleton] at hrx
  rw [hR.one x hx r (by rw [e1, hrx]; simp), hrx, e2]

omit [DecidableEq ι] in
/-- **C23** Which member is kept: a group consists of its first region, the later candidates near the first and, if
there are any, further candidates near the kept one; the kept one is the middle of the first two parts. -/
theorem C23_kept_is_middle {P : ι → Prop} {out : Recognized ι} {arr : List ι} {gs : List (List ι × ι)}
    (hR : Result T cfg P out arr gs) : ∀ x ∈ gs, ∃ r A B, x.1 = r :: A ++ B ∧
      (r :: A)[(r :: A).length / 2]? = some x.2 ∧
      (∀ a ∈ A, T.Above r a ∧ Near T cfg.maxPoint cfg.dup cfg.r64 r a) ∧
      (∀ b ∈ B, Near T cfg.maxPoint cfg.dup cfg.r64 x.2 b) ∧ (A = [] → B = []) :=
  hR.groups.middle

omit [DecidableEq ι] in
/-- **C19** Every region in a result of C23 is within the limits: size, not the root, stability value. -/
theorem C19_reported_within_limits {out : Recognized ι} {arr : List ι} {gs : List (List ι × ι)}
    (hR : Result T cfg (Selected T (limits cfg)) out arr gs) : ∀ r ∈ out.reported, T.isReg r ∧
      cfg.minPoint ≤ (T.size r : Int) ∧ (T.size r : Int) ≤ cfg.maxPoint ∧ T.parent r ≠ none ∧
      ∀ x, Stability T (limits cfg) r (some x) → x ≤ cfg.stable := by
  intro r hr
  have := (hR.mem r).1 (hR.sub r hr)
  exact ⟨this.reg, this.min, this.max, this.parent, this.stable⟩

/-- **C19** One thread. -/
theorem C19_serial (h : Held isReg F fuel T) (hnd : order.Nodup) (hord : ∀ r, r ∈ order ↔ isReg r)
    (h32 : Rounding cfg.r32) (h64 : Rounding cfg.r64) (hst : -1 ≤ cfg.stable) :
    ∃ out, recognizeSerial cfg fuel order msize exceed (ofForest F v) = some out ∧
      ∀ r ∈ out.reported, T.isReg r ∧
        cfg.minPoint ≤ (T.size r : Int) ∧ (T.size r : Int) ≤ cfg.maxPoint ∧ T.parent r ≠ none ∧
        (1 ≤ cfg.delta → ∀ x, Stability T (limits cfg) r (some x) → x ≤ cfg.stable) := by
  by_cases hd : 1 ≤ cfg.delta
  · obtain ⟨out, arr, gs, e, hR⟩ := C23_serial (msize := msize) (exceed := exceed) (v := v) h hnd hord h32 h64 hst hd
    exact ⟨out, e, fun r hr => by
      have := C19_reported_within_limits hR r hr
      exact ⟨this.1, this.2.1, this.2.2.1, this.2.2.2.1, fun _ => this.2.2.2.2⟩⟩
  · obtain ⟨out, arr, gs, e, hR⟩ := C23_serial_no_delta (msize := msize) (exceed := exceed) (v := v) h hnd hord h64 (by omega)
    refine ⟨out, e, fun r hr => ?_⟩
    have := (hR.mem r).1 (hR.sub r hr)
    exact ⟨this.1, this.2.1, this.2.2.1, this.2.2.2, fun hh => absurd hh hd⟩

/-- **C19** 32 threads. -/
theorem C19_parallel (h : Held isReg F fuel T) (hB : Blocks isReg pidx n regs)
    (h32 : Rounding cfg.r32) (h64 : Rounding cfg.r64) (hst : -1 ≤ cfg.stable) (hsz : ∀ r, T.isReg r → T.size r < 2 ^ 31) :
    ∃ out, recognizeParallel cfg pidx fuel n regs msize exceed (ofForest F v) = some out ∧
      ∀ r ∈ out.reported, T.isReg r ∧
        cfg.minPoint ≤ (T.size r : Int) ∧ (T.size r : Int) ≤ cfg.maxPoint ∧ T.parent r ≠ none ∧
        ∀ x, Stability T (limits cfg) r (some x) → x ≤ cfg.stable := by
  obtain ⟨out, arr, gs, e, hR⟩ := C23_parallel (msize := msize) (exceed := exceed) (v := v) h hB h32 h64 hst hsz
  exact ⟨out, e, C19_reported_within_limits hR⟩

/-- **C19** 4 threads. -/
theorem C19_four (h : Held isReg F fuel T) (hB : Blocks isReg pidx n regs)
    (hcap : ∀ k < n, (regs k).length ≤ cap k)
    (h32 : Rounding cfg.r32) (h64 : Rounding cfg.r64) (hst : -1 ≤ cfg.stable) (hsz : ∀ r, T.isReg r → T.size r < 2 ^ 31) :
    ∃ out, recognizeAccel cfg pidx fuel n cap regs msize exceed (ofForest F v) = some out ∧
      ∀ r ∈ out.reported, T.isReg r ∧
        cfg.minPoint ≤ (T.size r : Int) ∧ (T.size r : Int) ≤ cfg.maxPoint ∧ T.parent r ≠ none ∧
        ∀ x, Stability T (limits cfg) r (some x) → x ≤ cfg.stable := by
  obtain ⟨out, arr, gs, e, hR⟩ := C23_four (msize := msize) (exceed := exceed) (v := v) h hB hcap h32 h64 hst hsz
  exact ⟨out, e, C19_reported_within_limits hR⟩

end

/-! ### An example

Region 0 (level 10, 20 pixels) lies in region 2 (level 11, 21 pixels), which absorbed region 1; the whole image is
region 3 (level 40, 100 pixels). -/

def sampleForest : Forest Nat := fun r =>
  match r with
  | 0 => { gray := 10, parent := some 1, merged := false, size := 20 }
  | 1 => { gray := 11, parent := some 2, merged := true, size := 0 }
  | 2 => { gray := 11, parent := some 3, merged := false, size := 21 }
  | 3 => { gray := 40, parent := none, merged := false, size := 100 }
  | _ => { gray := 0, parent := none, merged := false, size := 0 }

theorem sample_held : Held (fun r => r < 4) sampleForest 1
    (forestTree 1 (fun r => r < 4) (fun _ : Unit => 0) sampleForest) := by
  refine ⟨⟨1, ⟨fun _ => rfl, ?_, ?_, ?_, ?_, ?_, ?_⟩, le_refl _⟩, ⟨_, rfl⟩, ⟨?_, ?_, ?_⟩⟩
  · intro r hr; interval_cases r <;> simp [sampleForest]
  · intro r hr r' h; interval_cases r <;> simp [sampleForest] at h <;> omega
  · intro r r' h
    by_contra hn
    match r, hn with
    | 0, hn | 1, hn | 2, hn | 3, hn => omega
    | r + 4, _ => simp [sampleForest] at h
  · intro r hr hm r' h; interval_cases r <;> simp [sampleForest] at h hm <;> subst h <;> simp [sampleForest]
  · intro r hr hm; interval_cases r <;> simp [sampleForest] at hm ⊢
  · intro r hr
    interval_cases r
    · exact ⟨0, by omega, 0, rfl, rfl⟩
    · exact ⟨1, by omega, 2, rfl, 2, rfl, rfl, rfl⟩
    · exact ⟨0, by omega, 2, rfl, rfl⟩
    · exact ⟨0, by omega, 3, rfl, rfl⟩
  · rintro r ⟨hr, hm⟩ p h
    simp only [forestTree] at h ⊢
    interval_cases r <;> simp [sampleForest] at hm <;> simp [sampleForest, Connect.chase] at h <;> subst h <;>
      simp [sampleForest]
  · rintro r ⟨hr, hm⟩; simp only [forestTree]; interval_cases r <;> simp [sampleForest]
  · rintro r ⟨hr, hm⟩; simp only [forestTree]; interval_cases r <;> simp [sampleForest] at hm ⊢

theorem sample_blocks : Blocks (fun r => r < 4) (fun r => r / 2) 2 (fun k => [2 * k, 2 * k + 1]) := by
  refine ⟨fun k _ => by simp, fun k hk r => ?_, fun r hr => by omega⟩
  simp only [List.mem_cons, List.not_mem_nil, or_false]; omega

/-- The hypotheses of the theorems above hold for this example. -/
example : [3, 1, 0, 2].Nodup ∧ (∀ r, r ∈ [3, 1, 0, 2] ↔ r < 4) ∧
    (∀ k < 2, ([2 * k, 2 * k + 1] : List Nat).length ≤ 2) ∧
    ∀ r, (forestTree 1 (fun r => r < 4) (fun _ : Unit => 0) sampleForest).isReg r →
      (forestTree 1 (fun r => r < 4) (fun _ : Unit => 0) sampleForest).size r < 2 ^ 31 := by
  refine ⟨by decide, fun r => ?_, fun k _ => by simp, ?_⟩
  · simp only [List.mem_cons, List.not_mem_nil, or_false]; omega
  · rintro r ⟨hr, hm⟩; simp only [forestTree]; interval_cases r <;> simp [sampleForest]

end Verif.Props
