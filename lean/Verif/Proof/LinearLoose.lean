import Verif.Proof.LinearRecog

/-!
# Proof: recognition of the linear detector on any forest of bounded depth

Nothing is assumed here of the stored gray levels but that they are bytes; with a mask the level of the root is
stored wrongly.
-/

namespace Verif.Linear

open Function (update)
open Verif.Recog Verif.Spec

variable {ι : Type} [DecidableEq ι] {cfg : Cfg} {R R0 : RForest ι} {s : RSt ι} {isReg : ι → Prop} {rk : ι → Nat}
  {order : List ι}

/-- Parents exist and have a higher rank, at most 256. -/
structure Ranked (isReg : ι → Prop) (rk : ι → Nat) (R : RForest ι) : Prop where
  par : ∀ r, isReg r → ∀ p, (R r).parent = some p → isReg p ∧ rk r < rk p
  le : ∀ r, isReg r → rk r ≤ 256

/-- The same gray levels, parents and sizes. -/
def SameShape (R R' : RForest ι) : Prop :=
  ∀ r, (R' r).gray = (R r).gray ∧ (R' r).parent = (R r).parent ∧ (R' r).size = (R r).size

omit [DecidableEq ι] in
theorem SameShape.refl (R : RForest ι) : SameShape R R := fun _ => ⟨rfl, rfl, rfl⟩

omit [DecidableEq ι] in
theorem SameShape.trans {R R' R'' : RForest ι} (h : SameShape R R') (h' : SameShape R' R'') : SameShape R R'' :=
  fun r => ⟨(h' r).1.trans (h r).1, (h' r).2.1.trans (h r).2.1, (h' r).2.2.trans (h r).2.2⟩

theorem sameShape_setFlag (R : RForest ι) (x : ι) (f : Flag) : SameShape R (setFlag R x f) := by
  intro r
  by_cases h : r = x
  · subst h; simp [setFlag]
  · simp [setFlag, Function.update_of_ne h]

theorem sameShape_setVar (R : RForest ι) (x : ι) (v : ℚ) : SameShape R (setVar R x v) := by
  intro r
  by_cases h : r = x
  · subst h; simp [setVar]
  · simp [setVar, Function.update_of_ne h]

omit [DecidableEq ι] in
theorem Ranked.of_same (h : Ranked isReg rk R0) (hS : SameShape R0 R) : Ranked isReg rk R :=
  ⟨fun r hr p hp => h.par r hr p (by rw [← (hS r).2.1]; exact hp), h.le⟩

omit [DecidableEq ι] in
theorem SameShape.bad (hS : SameShape R0 R) (r : ι) : badSize cfg (R r) = badSize cfg (R0 r) := by
  unfold badSize; rw [(hS r).2.1, (hS r).2.2]

/-! ### The first loop -/

omit [DecidableEq ι] in
theorem climbL_total (h : Ranked isReg rk R) (thr : Int) : ∀ (n : Nat) (t : ι) (o : Option ι),
    (∀ p, o = some p → isReg p ∧ 257 ≤ n + rk p) → ∃ x, climbL R thr n t o = some x
  | n, t, none, _ => ⟨(t, none), by cases n <;> rfl⟩
  | 0, t, some p, ho => by
    have := ho p rfl
    have := h.le p this.1
    omega
  | n + 1, t, some p, ho => by
    unfold climbL
    split
    · refine climbL_total h thr n p _ fun q hq => ?_
      have h1 := h.par p (ho p rfl).1 q hq
      have h2 := (ho p rfl).2
      exact ⟨h1.1, by omega⟩
    · exact ⟨_, rfl⟩

/-- The value `calculate_variation` stores. -/
def varL (cfg : Cfg) (R : RForest ι) (r : ι) : Option ℚ :=
  (climbL R ((R r).gray + cfg.delta) 256 r (R r).parent).map fun x =>
    if x.2.isSome ∨ ((R x.1).gray : Int) = (R r).gray + cfg.delta then ratio32 cfg (R x.1).size (R r).size else -1

theorem calcVarL_eq (R : RForest ι) (r : ι) : calcVarL cfg R r = (varL cfg R r).map (setVar R r) := by
  unfold calcVarL varL
  dsimp only
  cases climbL R ((R r).gray + cfg.delta) 256 r (R r).parent <;> rfl

omit [DecidableEq ι] in
theorem climbL_same (hS : SameShape R0 R) (thr : Int) : ∀ (n : Nat) (t : ι) (o : Option ι),
    climbL R thr n t o = climbL R0 thr n t o
  | n, t, none => by cases n <;> rfl
  | 0, t, some p => by unfold climbL; rw [(hS p).1]
  | n + 1, t, some p => by
    unfold climbL
    rw [(hS p).1, (hS p).2.1]
    simp only [climbL_same hS thr n]

omit [DecidableEq ι] in
theorem varL_same (hS : SameShape R0 R) (r : ι) : varL cfg R r = varL cfg R0 r := by
  unfold varL
  rw [climbL_same hS, (hS r).1, (hS r).2.1, (hS r).2.2]
  congr 1
  funext x
  rw [(hS x.1).1, (hS x.1).2.2]

/-- The region is left by the first loop. -/
def Pass (cfg : Cfg) (R0 : RForest ι) (r : ι) : Prop :=
  (0 < cfg.delta → ∀ v, varL cfg R0 r = some v → v ≤ cfg.stable) ∧ badSize cfg (R0 r) = false

theorem calcVarL_total (h : Ranked isReg rk R) {r : ι} (hr : isReg r) :
    ∃ R', calcVarL cfg R r = some R' ∧ SameShape R R' ∧ ∀ x, (R' x).flag = (R x).flag := by
  obtain ⟨x, hx⟩ := climbL_total h ((R r).gray + cfg.delta) 256 r (R r).parent fun p hp => by
    have := h.par r hr p hp
    exact ⟨this.1, by omega⟩
  have e : ∃ R', calcVarL cfg R r = some R' := by
    unfold calcVarL; dsimp only; rw [hx]; exact ⟨_, rfl⟩
  obtain ⟨R', e⟩ := e
  refine ⟨R', e, ?_, calcVarL_flag e⟩
  unfold calcVarL at e
  dsimp only at e
  rw [hx] at e
  simp only [Option.some.injEq] at e
  subst e
  exact sameShape_setVar _ _ _

/-- Loops keep this; `l` are the regions counted so far. -/
structure Loose (cfg : Cfg) (R0 : RForest ι) (l : List ι) (s : RSt ι) : Prop where
  same : SameShape R0 s.R
  flag : ∀ r, (s.R r).flag = .unknown ∨ (s.R r).flag = .invalid
  good : ∀ r ∈ l, (s.R r).flag = .unknown → badSize cfg (R0 r) = false
  lev : ∀ g, s.lev g = (l.countP (unk s.R g) : Int)

theorem unk_setFlag (R : RForest ι) (x r : ι) (g : Nat) (h : r ≠ x) : unk (setFlag R x .invalid) g r = unk R g r := by
  unfold unk
  rw [setFlag_flag_ne R _ h, (sameShape_setFlag R x .invalid r).1]

/-- One more region visited. -/
theorem visitL_loose (hR : Ranked isReg rk R0) {l : List ι} (h : Loose cfg R0 l s) {x : ι} (hx : isReg x) (hxl : x ∉ l)
    (hu : (s.R x).flag = .unknown) :
    ∃ s', visitL cfg s x = some s' ∧ Loose cfg R0 (l ++ [x]) s' ∧ (∀ y, y ≠ x → (s'.R y).flag = (s.R y).flag) ∧
      ((s'.R x).flag = .unknown ↔ Pass cfg R0 x) := by
  obtain ⟨R', e, hS, hfl, hv⟩ : ∃ R', (if 0 < cfg.delta then calcVarL cfg s.R x else some s.R) = some R' ∧ SameShape s.R R' ∧
      (∀ y, (R' y).flag = (s.R y).flag) ∧ (0 < cfg.delta → varL cfg R0 x = some (R' x).var) := by
    by_cases hd : 0 < cfg.delta
    · rw [if_pos hd]
      obtain ⟨R', e1, e2, e3⟩ := calcVarL_total (cfg := cfg) (hR.of_same h.same) hx
      refine ⟨R', e1, e2, e3, fun _ => ?_⟩
      rw [calcVarL_eq, varL_same h.same] at e1
      obtain ⟨v, e4, rfl⟩ := Option.map_eq_some_iff.1 e1
      rw [e4]; simp [setVar]
    · rw [if_neg hd]; exact ⟨_, rfl, SameShape.refl _, fun _ => rfl, fun h => absurd h hd⟩
  have hbad : badSize cfg (R' x) = badSize cfg (R0 x) := (h.same.trans hS).bad x
  have hunk : ∀ g r, unk R' g r = unk s.R g r := by
    intro g r; unfold unk; rw [hfl, (hS r).1]
  have hcnt : ∀ g, l.countP (unk R' g) = l.countP (unk s.R g) := fun g => by
    congr 1; funext r; exact hunk g r
  -- the region is dropped
  have hdrop : Loose cfg R0 (l ++ [x]) { s with R := setFlag R' x .invalid } ∧
      (∀ y, y ≠ x → (setFlag R' x .invalid y).flag = (s.R y).flag) := by
    have hne : ∀ y, y ≠ x → (setFlag R' x .invalid y).flag = (s.R y).flag := fun y hy => by
      rw [setFlag_flag_ne _ _ hy, hfl]
    refine ⟨⟨h.same.trans (hS.trans (sameShape_setFlag _ _ _)), fun r => ?_, fun r hr he => ?_, fun g => ?_⟩, hne⟩
    · by_cases hr : r = x
      · subst hr; exact .inr (setFlag_self _ _ _)
      · show (setFlag R' x .invalid r).flag = _ ∨ _
        rw [hne r hr]; exact h.flag r
    · have he : (setFlag R' x .invalid r).flag = .unknown := he
      by_cases hrx : r = x
      · subst hrx; rw [setFlag_self] at he; simp at he
      · rw [hne r hrx] at he
        rcases List.mem_append.1 hr with hr | hr
        · exact h.good r hr he
        · exact absurd (List.mem_singleton.1 hr) hrx
    · show s.lev g = _
      rw [h.lev, List.countP_append, List.countP_singleton]
      have h1 : unk (setFlag R' x .invalid) g x = false := by unfold unk; rw [setFlag_self]; simp
      rw [if_neg (by simp [h1]), Nat.add_zero, ← hcnt]
      congr 1
      refine (countP_same hxl fun y hy => ?_).symm
      exact unk_setFlag R' x y g hy
  unfold visitL
  rw [e]
  simp only
  split
  · rename_i hst
    refine ⟨_, rfl, hdrop.1, hdrop.2, ?_⟩
    show (setFlag R' x .invalid x).flag = _ ↔ _
    rw [setFlag_self]
    refine ⟨fun e => (by cases e), fun e => absurd (e.1 hst.1 _ (hv hst.1)) (not_le.2 hst.2)⟩
  · rename_i hst
    split
    · rename_i hb
      refine ⟨_, rfl, hdrop.1, hdrop.2, ?_⟩
      show (setFlag R' x .invalid x).flag = _ ↔ _
      rw [setFlag_self]
      refine ⟨fun e => (by cases e), fun e => ?_⟩
      rw [hbad, e.2] at hb; cases hb
    · rename_i hb
      refine ⟨_, rfl, ⟨h.same.trans hS, fun r => ?_, fun r hr he => ?_, fun g => ?_⟩, fun y _ => hfl y, ?_⟩
      rotate_right
      · show (R' x).flag = _ ↔ _
        rw [hfl, hu]
        refine ⟨fun _ => ⟨fun hd v hv' => ?_, by rw [← hbad]; simpa using hb⟩, fun _ => rfl⟩
        rw [hv hd] at hv'
        obtain rfl := Option.some.inj hv'
        by_contra hc
        exact hst ⟨hd, not_le.1 hc⟩
      · show (R' r).flag = _ ∨ (R' r).flag = _
        rw [hfl]; exact h.flag r
      · have he : (R' r).flag = .unknown := he
        rw [hfl] at he
        rcases List.mem_append.1 hr with hr | hr
        · exact h.good r hr he
        · rw [List.mem_singleton.1 hr, ← (h.same.trans hS).bad x]
          simpa using hb
      · show update s.lev (R' x).gray (s.lev (R' x).gray + 1) g = _
        show _ = (((l ++ [x]).countP (unk R' g) : Nat) : Int)
        rw [List.countP_append, List.countP_singleton, hcnt]
        have h1 : unk R' g x = decide ((R' x).gray = g) := by
          unfold unk; rw [hfl, hu]; simp
        rw [h1]
        by_cases hg : (R' x).gray = g
        · subst hg; simp [h.lev]
        · rw [Function.update_of_ne (Ne.symm hg)]; simp [hg, h.lev]

theorem visits_loose (hR : Ranked isReg rk R0) : ∀ (rest l : List ι) (s : RSt ι), (l ++ rest).Nodup →
    (∀ r ∈ rest, isReg r) → (∀ r ∈ rest, (s.R r).flag = .unknown) → Loose cfg R0 l s →
    ∃ s', rest.foldlM (visitL cfg) s = some s' ∧ Loose cfg R0 (l ++ rest) s' ∧
      (∀ r ∈ rest, (s'.R r).flag = .unknown ↔ Pass cfg R0 r) ∧ ∀ r, r ∉ rest → (s'.R r).flag = (s.R r).flag
  | [], l, s, _, _, _, h => ⟨s, rfl, by simpa using h, fun _ h => absurd h (by simp), fun _ _ => rfl⟩
  | x :: rest, l, s, hnd, hreg, hu, h => by
    have hxl : x ∉ l := fun hx => by
      rw [List.nodup_append] at hnd
      exact hnd.2.2 x hx x (by simp) rfl
    obtain ⟨s1, e1, h1, h2, h2'⟩ := visitL_loose hR h (hreg x (by simp)) hxl (hu x (by simp))
    have hnd' : (l ++ [x] ++ rest).Nodup := by simpa using hnd
    have hxr : x ∉ rest := fun hr => by
      rw [List.nodup_append] at hnd
      exact (List.nodup_cons.1 hnd.2.1).1 hr
    obtain ⟨s2, e2, h3, h4, h5⟩ := visits_loose hR rest (l ++ [x]) s1 hnd' (fun r hr => hreg r (by simp [hr]))
      (fun r hr => by
        have hne : r ≠ x := by rintro rfl; exact hxr hr
        rw [h2 r hne]; exact hu r (by simp [hr])) h1
    refine ⟨s2, by rw [List.foldlM_cons, e1]; exact e2, by simpa using h3, fun r hr => ?_, fun r hr => ?_⟩
    · rcases List.mem_cons.1 hr with rfl | hr
      · rw [h5 r hxr]; exact h2'
      · exact h4 r hr
    · rw [List.mem_cons, not_or] at hr
      rw [h5 r hr.2, h2 r hr.1]

/-! ### The second loop -/

theorem mark_loose (hnd : order.Nodup) (h : Loose cfg R0 order s) {p : ι} (hp : p ∈ order) (hf : (s.R p).flag ≠ .invalid) :
    Loose cfg R0 order ({ s with R := setFlag s.R p .invalid }.count (s.R p).gray (-1)) := by
  have hu : (s.R p).flag = .unknown := by
    rcases h.flag p with e | e
    · exact e
    · exact absurd e hf
  refine ⟨h.same.trans (sameShape_setFlag _ _ _), fun r => ?_, fun r hr he => ?_, fun g => ?_⟩
  · show (setFlag s.R p .invalid r).flag = _ ∨ (setFlag s.R p .invalid r).flag = _
    by_cases hr : r = p
    · subst hr; exact .inr (setFlag_self _ _ _)
    · rw [setFlag_flag_ne _ _ hr]; exact h.flag r
  · have he : (setFlag s.R p .invalid r).flag = .unknown := he
    by_cases hrp : r = p
    · subst hrp; rw [setFlag_self] at he; simp at he
    · rw [setFlag_flag_ne _ _ hrp] at he; exact h.good r hr he
  · show update s.lev (s.R p).gray (s.lev (s.R p).gray + -1) g = ((order.countP (unk (setFlag s.R p .invalid) g) : Nat) : Int)
    by_cases hg : (s.R p).gray = g
    · subst hg
      have := countP_drop hnd (f := unk s.R (s.R p).gray) (f' := unk (setFlag s.R p .invalid) (s.R p).gray) hp
        (fun x hx => unk_setFlag s.R p x _ hx) (by simp [unk, hu]) (by unfold unk; rw [setFlag_self]; simp)
      rw [Function.update_self, h.lev, this]
      push_cast; omega
    · rw [Function.update_of_ne (Ne.symm hg), h.lev]
      congr 1
      refine List.countP_congr fun x _ => ?_
      by_cases hx : x = p
      · subst hx
        have e1 : unk s.R g x = false := by simp [unk, hg]
        have e2 : unk (setFlag s.R x .invalid) g x = false := by unfold unk; rw [setFlag_self]; simp
        rw [e1, e2]
      · rw [unk_setFlag s.R p x g hx]

theorem nmsL_loose (hnd : order.Nodup) (hpar : ∀ r ∈ order, ∀ p, (R0 r).parent = some p → p ∈ order)
    (h : Loose cfg R0 order s) {r : ι} (hr : r ∈ order) : Loose cfg R0 order (nmsL cfg s r) := by
  unfold nmsL
  dsimp only
  split
  · exact h
  · rename_i p hp
    have hp' : p ∈ order := hpar r hr p (by rw [← (h.same r).2.1]; exact hp)
    split
    · exact h
    · split
      · split
        · split
          · rename_i hf; exact mark_loose hnd h hp' hf
          · exact h
        · split
          · split
            · rename_i hf; exact mark_loose hnd h hr hf
            · exact h
          · exact h
      · exact h

theorem nmsFold_loose (hnd : order.Nodup) (hpar : ∀ r ∈ order, ∀ p, (R0 r).parent = some p → p ∈ order) :
    ∀ (l : List ι) (s : RSt ι), (∀ r ∈ l, r ∈ order) → Loose cfg R0 order s → Loose cfg R0 order (l.foldl (nmsL cfg) s)
  | [], _, _, h => h
  | r :: l, s, hl, h => by
    rw [List.foldl_cons]
    exact nmsFold_loose hnd hpar l _ (fun x hx => hl x (by simp [hx])) (nmsL_loose hnd hpar h (hl r (by simp)))

theorem selectL_loose (hR : Ranked isReg rk R0) (hnd : order.Nodup) (hreg : ∀ r, r ∈ order ↔ isReg r)
    (hfresh : ∀ r, (R0 r).flag = .unknown) : ∃ s, selectL cfg order R0 = some s ∧ Loose cfg R0 order s ∧
      (¬ (0 < cfg.delta ∧ 0 ≤ cfg.nms) → ∀ r ∈ order, (s.R r).flag = .unknown ↔ Pass cfg R0 r) := by
  obtain ⟨s, e, h, hx, -⟩ := visits_loose (cfg := cfg) hR order [] ⟨R0, fun _ => 0, 0⟩ (by simpa using hnd)
    (fun r hr => (hreg r).1 hr) (fun r _ => hfresh r)
    ⟨SameShape.refl _, fun r => .inl (hfresh r), fun r hr => absurd hr (by simp), fun g => by simp⟩
  rw [List.nil_append] at h
  unfold selectL
  rw [e]
  refine ⟨_, rfl, ?_⟩
  split
  · rename_i hc
    exact ⟨nmsFold_loose hnd (fun r hr p hp => (hreg p).2 (hR.par r ((hreg r).1 hr) p hp).1) order s (fun _ hx => hx) h,
      fun hn => absurd hc hn⟩
  · exact ⟨h, fun _ => hx⟩

/-! ### Duplicate removal -/

omit [DecidableEq ι] in
/-- Duplicates have increasing rank and are neither kept nor dropped yet. -/
theorem dupLoop_total (h : Ranked isReg rk R) (st : ι) : ∀ (n : Nat) (o : Option ι),
    (∀ p, o = some p → isReg p ∧ 257 ≤ n + rk p) → ∃ l, dupLoop cfg R st n o = some l ∧
      (l.Pairwise fun x y => rk x < rk y) ∧
      ∀ y ∈ l, isReg y ∧ (R y).flag ≠ .valid ∧ (R y).flag ≠ .invalid ∧ ∃ p, o = some p ∧ rk p ≤ rk y
  | n, none, _ => ⟨[], by cases n <;> simp [dupLoop], .nil, fun y hy => absurd hy (by simp)⟩
  | 0, some p, ho => by
    have := ho p rfl
    have := h.le p this.1
    omega
  | n + 1, some p, ho => by
    have hp := ho p rfl
    unfold dupLoop
    split
    · exact ⟨[], rfl, .nil, fun y hy => absurd hy (by simp)⟩
    · split
      · exact ⟨[], rfl, .nil, fun y hy => absurd hy (by simp)⟩
      · obtain ⟨l, e, h1, h2⟩ := dupLoop_total h st n (R p).parent fun q hq => by
          have := h.par p hp.1 q hq
          exact ⟨this.1, by omega⟩
        have h3 : ∀ y ∈ l, rk p < rk y := by
          intro y hy
          obtain ⟨_, _, _, q, hq, hqy⟩ := h2 y hy
          exact lt_of_lt_of_le (h.par p hp.1 q hq).2 hqy
        split
        · exact ⟨l, e, h1, fun y hy => ⟨(h2 y hy).1, (h2 y hy).2.1, (h2 y hy).2.2.1, p, rfl, le_of_lt (h3 y hy)⟩⟩
        · rename_i hf
          rw [not_or] at hf
          refine ⟨p :: l, by rw [e]; rfl, List.pairwise_cons.2 ⟨h3, h1⟩, fun y hy => ?_⟩
          rcases List.mem_cons.1 hy with rfl | hy
          · exact ⟨hp.1, hf.1, hf.2, _, rfl, le_refl _⟩
          · exact ⟨(h2 y hy).1, (h2 y hy).2.1, (h2 y hy).2.2.1, p, rfl, le_of_lt (h3 y hy)⟩

omit [DecidableEq ι] in
theorem getDuplicated_total (h : Ranked isReg rk R) (st : ι) {x : ι} (hx : isReg x) :
    ∃ l, getDuplicated cfg R st x = some l ∧ (l.Pairwise fun x y => rk x < rk y) ∧
      ∀ y ∈ l, isReg y ∧ (R y).flag ≠ .valid ∧ (R y).flag ≠ .invalid ∧ rk x < rk y := by
  obtain ⟨l, e, h1, h2⟩ := dupLoop_total (cfg := cfg) h st 256 (R x).parent fun q hq => by
    have := h.par x hx q hq
    exact ⟨this.1, by omega⟩
  refine ⟨l, e, h1, fun y hy => ?_⟩
  obtain ⟨h3, h4, h5, q, hq, hqy⟩ := h2 y hy
  exact ⟨h3, h4, h5, lt_of_lt_of_le (h.par x hx q hq).2 hqy⟩

omit [DecidableEq ι] in
/-- A group exists, has no region twice, consists of undecided regions, and has a middle. -/
theorem group_total (h : Ranked isReg rk R) {x : ι} (hx : isReg x) (hu : (R x).flag = .unknown) :
    ∃ g mid, group cfg R x = some (g, mid) ∧ (g.Pairwise fun x y => rk x < rk y) ∧ mid < g.length ∧ x ∈ g ∧
      ∀ y ∈ g, isReg y ∧ (R y).flag ≠ .valid ∧ (R y).flag ≠ .invalid := by
  obtain ⟨l, e, h1, h2⟩ := getDuplicated_total (cfg := cfg) h x hx
  have hp : (x :: l).Pairwise fun x y => rk x < rk y := List.pairwise_cons.2 ⟨fun y hy => (h2 y hy).2.2.2, h1⟩
  have hm : ∀ y ∈ x :: l, isReg y ∧ (R y).flag ≠ .valid ∧ (R y).flag ≠ .invalid := by
    intro y hy
    rcases List.mem_cons.1 hy with rfl | hy
    · exact ⟨hx, by simp [hu], by simp [hu]⟩
    · exact ⟨(h2 y hy).1, (h2 y hy).2.1, (h2 y hy).2.2.1⟩
  unfold group
  rw [e]
  simp only
  by_cases hl : 0 < (x :: l).length / 2
  · rw [if_pos hl]
    have hlt : (x :: l).length / 2 < (x :: l).length := Nat.div_lt_self (by simp) (by decide)
    obtain ⟨m, hmid⟩ : ∃ m, (x :: l)[(x :: l).length / 2]? = some m := ⟨_, List.getElem?_eq_getElem hlt⟩
    obtain ⟨z, hz⟩ : ∃ z, (x :: l).getLast? = some z := ⟨_, List.getLast?_cons⟩
    rw [hmid, hz]
    simp only
    have hzm : z ∈ x :: l := List.mem_of_getLast? hz
    obtain ⟨l', e', h3, h4⟩ := getDuplicated_total (cfg := cfg) h m (hm z hzm).1
    rw [e']
    have hlast : ∀ y ∈ x :: l, rk y ≤ rk z := by
      intro y hy
      obtain ⟨t, ht⟩ := List.getLast?_eq_some_iff.1 hz
      rw [ht] at hp hy
      rw [List.pairwise_append] at hp
      rcases List.mem_append.1 hy with hy | hy
      · exact le_of_lt (hp.2.2 y hy z (by simp))
      · rw [List.mem_singleton.1 hy]
    refine ⟨_, _, rfl, ?_, ?_, by simp, ?_⟩
    · rw [List.pairwise_append]
      exact ⟨hp, h3, fun a ha c hc => lt_of_le_of_lt (hlast a ha) (h4 c hc).2.2.2⟩
    · rw [List.length_append]; omega
    · intro y hy
      rcases List.mem_append.1 hy with hy | hy
      · exact hm y hy
      · exact ⟨(h4 y hy).1, (h4 y hy).2.1, (h4 y hy).2.2.1⟩
  · rw [if_neg hl]
    exact ⟨_, _, rfl, hp, by simp only [List.length_cons] at hl ⊢; omega, by simp, hm⟩

/-- The loop keeps this: `valid` counts the regions kept so far, and only regions of `arr` are undecided. -/
structure Part (isReg : ι → Prop) (R0 : RForest ι) (arr : List ι) (s : DSt ι) : Prop where
  same : SameShape R0 s.R
  flag : ∀ r, isReg r → r ∉ arr → (s.R r).flag = .invalid
  count : arr.countP (fun r => decide ((s.R r).flag = .valid)) = s.valid

theorem dedupStep_part (hR : Ranked isReg rk R0) {arr : List ι} (hnd : arr.Nodup) (harr : ∀ r ∈ arr, isReg r)
    {s : DSt ι} (h : Part isReg R0 arr s) {x : ι} (hx : x ∈ arr) :
    ∃ s', dedupStep cfg s x = some s' ∧ Part isReg R0 arr s' := by
  unfold dedupStep
  by_cases hu : (s.R x).flag = .unknown
  · rw [if_neg (by simp [hu])]
    obtain ⟨g, mid, e, h1, h2, h3, h4⟩ := group_total (cfg := cfg) (hR.of_same h.same) (harr x hx) hu
    rw [e]
    have hgn : g.Nodup := h1.imp fun hab => by rintro rfl; omega
    have hga : ∀ y ∈ g, y ∈ arr := by
      intro y hy
      by_contra hn
      exact (h4 y hy).2.2 (h.flag y (h4 y hy).1 hn)
    have hmk := markGroup_spec g hgn mid s.R
    refine ⟨_, rfl, ⟨fun r => ?_, fun r hr hra => ?_, ?_⟩⟩
    · show (markGroup s.R g mid r).gray = _ ∧ (markGroup s.R g mid r).parent = _ ∧ (markGroup s.R g mid r).size = _
      rw [hmk]; exact h.same r
    · show (markGroup s.R g mid r).flag = _
      rw [hmk]
      have : r ∉ g := fun hg => hra (hga r hg)
      simp only [reflag, this, if_false]
      exact h.flag r hr hra
    · have hm : g[mid]? = some g[mid] := List.getElem?_eq_getElem h2
      have hmg : g[mid] ∈ g := List.getElem_mem h2
      show arr.countP (fun r => decide ((markGroup s.R g mid r).flag = .valid)) = s.valid + 1
      rw [← h.count]
      refine countP_drop hnd (r := g[mid]) (hga _ hmg) ?_ ?_ ?_
      · intro y hy
        rw [hmk]
        by_cases hyg : y ∈ g
        · have : ¬ g[mid] = y := Ne.symm hy
          simp [reflag, hyg, hm, this, (h4 y hyg).2.1]
        · simp [reflag, hyg]
      · rw [hmk]; simp [reflag, hmg]
      · simp [(h4 _ hmg).2.1]
  · rw [if_pos hu]; exact ⟨s, rfl, h⟩

theorem dedup_part (hR : Ranked isReg rk R0) {arr : List ι} (hnd : arr.Nodup) (harr : ∀ r ∈ arr, isReg r) :
    ∀ (l : List ι) (s : DSt ι), (∀ r ∈ l, r ∈ arr) → Part isReg R0 arr s →
      ∃ s', l.foldlM (dedupStep cfg) s = some s' ∧ Part isReg R0 arr s'
  | [], s, _, h => ⟨s, rfl, h⟩
  | x :: l, s, hl, h => by
    obtain ⟨s1, e1, h1⟩ := dedupStep_part (cfg := cfg) hR hnd harr h (hl x (by simp))
    obtain ⟨s2, e2, h2⟩ := dedup_part hR hnd harr l s1 (fun r hr => hl r (by simp [hr])) h1
    exact ⟨s2, by rw [List.foldlM_cons, e1]; exact e2, h2⟩

/-- **Recognition of the linear detector on any forest of bounded depth**: it ends, everything reported is a region
within the size limits that has a parent, nothing is reported twice, and the total is the sum of the sizes.  Without
suppression and duplicate removal everything is reported that the first loop leaves. -/
theorem recognizeL_loose (hR : Ranked isReg rk R0) (hnd : order.Nodup) (hreg : ∀ r, r ∈ order ↔ isReg r)
    (hfresh : ∀ r, (R0 r).flag = .unknown) (hgr : ∀ r, isReg r → (R0 r).gray < 256) {msize : Nat}
    (hm : order.length ≤ msize) :
    ∃ out, recognizeL cfg order msize R0 = some out ∧ out.reported.Nodup ∧
      (∀ r ∈ out.reported, isReg r ∧ badSize cfg (R0 r) = false) ∧
      out.pixels = (out.reported.map fun r => (R0 r).size).sum ∧
      (¬ (0 < cfg.delta ∧ 0 ≤ cfg.nms) → cfg.dup ≤ 0 → ∀ r, r ∈ out.reported ↔ isReg r ∧ Pass cfg R0 r) := by
  obtain ⟨s, e1, h1, h1'⟩ := selectL_loose (cfg := cfg) hR hnd hreg hfresh
  have hgs : ∀ r ∈ order, (s.R r).flag = .unknown → (s.R r).gray < 256 := by
    intro r hr _; rw [(h1.same r).1]; exact hgr r ((hreg r).1 hr)
  have e2 := grayOrder_spec (msize := msize) h1.lev hgs
    (le_trans (List.countP_le_length (p := cand s.R) (l := order)) hm)
  rw [← order_eq h1.flag] at e2
  have hmem : ∀ r, r ∈ byGray s.R order 256 ↔ r ∈ order ∧ (s.R r).flag = .unknown := by
    intro r
    rw [mem_byGray]
    exact ⟨fun h => ⟨h.1, h.2.1⟩, fun h => ⟨h.1, h.2, hgs r h.1 h.2⟩⟩
  have hbn := byGray_nodup (R := s.R) hnd 256
  generalize byGray s.R order 256 = arr at e2 hmem hbn
  have hgood : ∀ r ∈ arr, isReg r ∧ badSize cfg (R0 r) = false := fun r hr =>
    ⟨(hreg r).1 ((hmem r).1 hr).1, h1.good r ((hmem r).1 hr).1 ((hmem r).1 hr).2⟩
  unfold recognizeL
  rw [e1]; simp only; rw [e2]; simp only
  split
  · rename_i hdup
    have hP : Part isReg R0 arr ⟨s.R, 0⟩ := by
      refine ⟨h1.same, fun r hr hra => ?_, ?_⟩
      · rcases h1.flag r with e | e
        · exact absurd ((hmem r).2 ⟨(hreg r).2 hr, e⟩) hra
        · exact e
      · rw [List.countP_eq_zero]
        intro r hr
        simp [((hmem r).1 hr).2]
    obtain ⟨s', e3, h3⟩ := dedup_part (cfg := cfg) hR hbn (fun r hr => (hgood r hr).1) arr ⟨s.R, 0⟩ (fun _ h => h) hP
    unfold dedup
    rw [e3]
    simp only
    have hlen : (arr.filter fun r => decide ((s'.R r).flag = .valid)).length = s'.valid := by
      rw [← List.countP_eq_length_filter]; exact h3.count
    have htake : (arr.filter fun r => decide ((s'.R r).flag = .valid)).take s'.valid =
        arr.filter fun r => decide ((s'.R r).flag = .valid) := by rw [← hlen, List.take_length]
    refine ⟨_, rfl, ?_, ?_, ?_, fun _ hd => absurd hdup (not_lt.2 hd)⟩
    · show (List.take _ _).Nodup
      rw [htake]; exact hbn.filter _
    · intro r hr
      have hr : r ∈ List.take s'.valid (arr.filter fun r => decide ((s'.R r).flag = .valid)) := hr
      rw [htake] at hr
      exact hgood r (List.mem_filter.1 hr).1
    · show List.sum _ = List.sum (List.map _ (List.take _ _))
      rw [htake]
      congr 1
      refine List.map_congr_left fun r _ => (h3.same r).2.2
  · refine ⟨_, rfl, hbn, hgood, ?_, fun hn _ r => ?_⟩
    · show List.sum _ = List.sum (List.map _ arr)
      congr 1
      refine List.map_congr_left fun r _ => (h1.same r).2.2
    · show r ∈ arr ↔ _
      rw [hmem, ← hreg]
      exact and_congr_right fun hr => h1' hn r hr

end Verif.Linear
