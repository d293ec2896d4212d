import Verif.Proof.ExtractHead

/-!
# Preparing: nearest reported ancestors, sizes, assignment of the region objects
-/

namespace Verif.Extract

open Verif.Recog (Flag)

theorem foldlM_zipIdx {σ : Type} (f : σ → Reg × Nat → Option σ) (arr : List Reg)
    (I : Nat → σ → Prop)
    (step : ∀ t (h : t < arr.length) s, I t s → ∃ s', f s (arr[t], t) = some s' ∧ I (t + 1) s')
    (s : σ) (h0 : I 0 s) : ∃ s', arr.zipIdx.foldlM f s = some s' ∧ I arr.length s' := by
  have gen : ∀ (n t : Nat) (s : σ), t + n = arr.length → I t s →
      ∃ s', ((arr.drop t).zipIdx t).foldlM f s = some s' ∧ I arr.length s' := by
    intro n
    induction n with
    | zero =>
      intro t s h inv
      obtain rfl : t = arr.length := by omega
      rw [List.drop_length]
      exact ⟨s, rfl, inv⟩
    | succ n ih =>
      intro t s h inv
      have ht : t < arr.length := by omega
      obtain ⟨s1, e1, i1⟩ := step t ht s inv
      obtain ⟨s2, e2, i2⟩ := ih (t + 1) s1 (by omega) i1
      refine ⟨s2, ?_, i2⟩
      rw [List.drop_eq_getElem_cons ht, List.zipIdx_cons, List.foldlM_cons, e1]
      exact e2
  have := gen arr.length 0 s (by omega) h0
  simpa using this

theorem foldlM_inv {σ α : Type} (f : σ → α → Option σ) (I : σ → Prop) (D : σ → α → Prop)
    (l : List α)
    (step : ∀ a ∈ l, ∀ s, I s → ∃ s', f s a = some s' ∧ I s' ∧ D s' a)
    (keep : ∀ a ∈ l, ∀ b s s', I s → f s a = some s' → D s b → D s' b)
    (s : σ) (h0 : I s) : ∃ s', l.foldlM f s = some s' ∧ I s' ∧ (∀ a ∈ l, D s' a) ∧
      (∀ b, D s b → D s' b) := by
  induction l generalizing s with
  | nil => exact ⟨s, rfl, h0, by simp, fun _ h => h⟩
  | cons a l ih =>
    obtain ⟨s1, e1, i1, d1⟩ := step a (by simp) s h0
    obtain ⟨s2, e2, i2, d2, k2⟩ := ih (fun b hb => step b (by simp [hb]))
      (fun b hb => keep b (by simp [hb])) s1 i1
    refine ⟨s2, ?_, i2, ?_, ?_⟩
    · rw [List.foldlM_cons, e1]; exact e2
    · intro b hb
      rcases List.mem_cons.mp hb with rfl | hb
      · exact k2 _ d1
      · exact d2 b hb
    · intro b hb
      exact k2 b (keep a (by simp) b s s1 h0 e1 hb)

/-- `r` is a region object. -/
def IsReg (E : Env) (r : Reg) : Prop := r.1 < E.n ∧ r.2 < E.nreg r.1

/-! ### Climbing -/

theorem climbValid_mono {X : XForest} {f g : Nat} {o res : Option Reg}
    (h : climbValid X f o = some res) (hfg : f ≤ g) : climbValid X g o = some res := by
  induction f generalizing o g with
  | zero =>
    cases o with
    | none => cases g <;> exact h
    | some r => simp [climbValid] at h
  | succ f ih =>
    cases o with
    | none => cases g <;> exact h
    | some r =>
      obtain ⟨g, rfl⟩ : ∃ g', g = g' + 1 := ⟨g - 1, by omega⟩
      simp only [climbValid] at h ⊢
      split
      · rename_i hv; rw [if_pos hv] at h; exact h
      · rename_i hv; rw [if_neg hv] at h; exact ih h (by omega)

theorem climbValid_det {X : XForest} {f g : Nat} {o a b : Option Reg}
    (h : climbValid X f o = some a) (h' : climbValid X g o = some b) : a = b := by
  rcases Nat.le_total f g with hl | hl
  · have := climbValid_mono h hl; rw [this] at h'; exact Option.some.inj h'
  · have := climbValid_mono h' hl; rw [this] at h; exact (Option.some.inj h).symm

theorem climbValid_valid {X : XForest} {f : Nat} {o : Option Reg} {q : Reg}
    (h : climbValid X f o = some (some q)) : (X q).flag = .valid := by
  induction f generalizing o with
  | zero => cases o <;> simp [climbValid] at h
  | succ f ih =>
    cases o with
    | none => simp [climbValid] at h
    | some r =>
      simp only [climbValid] at h
      split at h
      · rename_i hv; rw [← Option.some.inj (Option.some.inj h)]; exact hv
      · exact ih h

/-- Region objects with ranks that fall towards the parents. -/
structure Ranked (E : Env) (rk : Reg → Nat) (X : XForest) : Prop where
  par : ∀ r q, IsReg E r → (X r).parent = some q → IsReg E q ∧ rk q < rk r

theorem climbValid_total {E : Env} {rk : Reg → Nat} {X : XForest} (hX : Ranked E rk X) (f : Nat) :
    ∀ o : Option Reg, (∀ r, o = some r → IsReg E r ∧ rk r < f) →
      ∃ res, climbValid X f o = some res := by
  induction f with
  | zero =>
    intro o h
    cases o with
    | none => exact ⟨none, rfl⟩
    | some r => have := (h r rfl).2; omega
  | succ f ih =>
    intro o h
    cases o with
    | none => exact ⟨none, rfl⟩
    | some r =>
      obtain ⟨hr, hrk⟩ := h r rfl
      simp only [climbValid]
      split
      · exact ⟨_, rfl⟩
      · apply ih
        intro q hq
        obtain ⟨h1, h2⟩ := hX.par r q hr hq
        exact ⟨h1, by omega⟩

theorem climbValid_reg {E : Env} {rk : Reg → Nat} {X : XForest} (hX : Ranked E rk X) {f : Nat} :
    ∀ {o : Option Reg} {q : Reg}, (∀ r, o = some r → IsReg E r) →
      climbValid X f o = some (some q) → IsReg E q ∧ ∀ r, o = some r → rk q ≤ rk r := by
  induction f with
  | zero => intro o q _ h; cases o <;> simp [climbValid] at h
  | succ f ih =>
    intro o q ho h
    cases o with
    | none => simp [climbValid] at h
    | some r =>
      simp only [climbValid] at h
      split at h
      · obtain rfl := Option.some.inj (Option.some.inj h)
        exact ⟨ho _ rfl, fun r' e => by rw [Option.some.inj e]⟩
      · obtain ⟨h1, h2⟩ := ih (o := (X r).parent) (fun p hp => (hX.par r p (ho r rfl) hp).1) h
        refine ⟨h1, fun r' e => ?_⟩
        obtain rfl := Option.some.inj e
        cases hp : (X r).parent with
        | none => rw [hp] at h; cases f <;> simp [climbValid] at h
        | some p =>
          have := (hX.par r p (ho r rfl) hp).2
          have := h2 p hp
          omega

/-- The way up as it was at the beginning. -/
structure Climbs (E : Env) (rk : Reg → Nat) (F : Nat) (nu : Reg → Option Reg) (X : XForest) : Prop
    extends Ranked E rk X where
  climb : ∀ r, IsReg E r → climbValid X F (X r).parent = some (nu r)

theorem climbValid_short {E : Env} {rk : Reg → Nat} {F : Nat} {nu : Reg → Option Reg}
    {X X' : XForest} (hX : Climbs E rk F nu X) (hf : ∀ r, IsReg E r → (X' r).flag = (X r).flag)
    (hp : ∀ r, IsReg E r → (X' r).parent = (X r).parent ∨ (X' r).parent = nu r) (f : Nat) :
    ∀ (o res : Option Reg), (∀ r, o = some r → IsReg E r) → climbValid X f o = some res →
      climbValid X' f o = some res := by
  induction f with
  | zero => intro o res _ h; cases o <;> simp_all [climbValid]
  | succ f ih =>
    intro o res ho h
    cases o with
    | none => exact h
    | some r =>
      have hr := ho r rfl
      simp only [climbValid] at h ⊢
      rw [hf r hr]
      split
      · rename_i hv; rw [if_pos hv] at h; exact h
      · rename_i hv
        rw [if_neg hv] at h
        have hpr : ∀ q, (X r).parent = some q → IsReg E q := fun q hq => (hX.par r q hr hq).1
        rcases hp r hr with e | e
        · rw [e]; exact ih _ _ hpr h
        · have hnu : nu r = res := climbValid_det (hX.climb r hr) h
          rw [e, hnu]
          cases res with
          | none => cases f <;> rfl
          | some q =>
            cases f with
            | zero => cases hh : (X r).parent <;> rw [hh] at h <;> simp [climbValid] at h
            | succ f =>
              have hv := climbValid_valid h
              have hq := (climbValid_reg hX.toRanked hpr h).1
              simp only [climbValid]
              rw [if_pos (by rw [hf q hq]; exact hv)]

theorem climbs_short {E : Env} {rk : Reg → Nat} {F : Nat} {nu : Reg → Option Reg}
    {X X' : XForest} (hX : Climbs E rk F nu X) (hf : ∀ r, IsReg E r → (X' r).flag = (X r).flag)
    (hp : ∀ r, IsReg E r → (X' r).parent = (X r).parent ∨ (X' r).parent = nu r) :
    Climbs E rk F nu X' := by
  have hpr : ∀ r, IsReg E r → ∀ q, (X r).parent = some q → IsReg E q :=
    fun r hr q hq => (hX.par r q hr hq).1
  refine ⟨⟨?_⟩, ?_⟩
  · intro r q hr hq
    rcases hp r hr with e | e
    · exact hX.par r q hr (e ▸ hq)
    · have hc := hX.climb r hr
      rw [← e, hq] at hc
      obtain ⟨h1, h2⟩ := climbValid_reg hX.toRanked (hpr r hr) hc
      refine ⟨h1, ?_⟩
      cases hh : (X r).parent with
      | none => rw [hh] at hc; cases F <;> simp [climbValid] at hc
      | some p =>
        have := h2 p hh
        have := (hX.par r p hr hh).2
        omega
  · intro r hr
    have h := climbValid_short hX hf hp F _ _ (hpr r hr) (hX.climb r hr)
    rcases hp r hr with e | e
    · rw [e]; exact h
    · rw [e]
      have hc := hX.climb r hr
      cases hn : nu r with
      | none => cases F <;> rfl
      | some q =>
        rw [hn] at hc
        cases F with
        | zero => cases hh : (X r).parent <;> rw [hh] at hc <;> simp [climbValid] at hc
        | succ F =>
          have hv := climbValid_valid hc
          have hq := (climbValid_reg hX.toRanked (hpr r hr) hc).1
          simp only [climbValid]
          rw [if_pos (by rw [hf q hq]; exact hv)]

/-- Nothing but parents changed. -/
def SameBut (X X' : XForest) : Prop := ∀ r, X' r = { X r with parent := (X' r).parent }

theorem compress_spec {E : Env} {rk : Reg → Nat} {F : Nat} {nu : Reg → Option Reg}
    {real : Option Reg} (f : Nat) :
    ∀ (X : XForest) (o : Option Reg), Climbs E rk F nu X → (∀ r, o = some r → IsReg E r) →
      climbValid X f o = some real →
      ∃ X', compress real f X o = some X' ∧ Climbs E rk F nu X' ∧ SameBut X X' ∧
        ∀ r, (X r).parent = nu r → (X' r).parent = nu r := by
  induction f with
  | zero =>
    intro X o hX _ h
    cases o with
    | none => exact ⟨X, rfl, hX, fun _ => rfl, fun _ h => h⟩
    | some r => simp [climbValid] at h
  | succ f ih =>
    intro X o hX ho h
    cases o with
    | none => exact ⟨X, rfl, hX, fun _ => rfl, fun _ h => h⟩
    | some r =>
      have hr := ho r rfl
      simp only [climbValid] at h
      by_cases hv : (X r).flag = .valid
      · rw [if_pos hv] at h
        refine ⟨X, ?_, hX, fun _ => rfl, fun _ h => h⟩
        simp only [compress]
        rw [if_pos (Option.some.inj h)]
      · rw [if_neg hv] at h
        have hne : some r ≠ real := by
          intro e; rw [← e] at h; exact hv (climbValid_valid h)
        have hnu : nu r = real := climbValid_det (hX.climb r hr) h
        have hf' : ∀ q, IsReg E q →
            (Function.update X r { X r with parent := real } q).flag = (X q).flag := by
          intro q _
          by_cases e : q = r
          · subst e; rw [Function.update_self]
          · rw [Function.update_of_ne e]
        have hp' : ∀ q, IsReg E q →
            (Function.update X r { X r with parent := real } q).parent = (X q).parent ∨
            (Function.update X r { X r with parent := real } q).parent = nu q := by
          intro q _
          by_cases e : q = r
          · subst e; right; rw [Function.update_self, hnu]
          · left; rw [Function.update_of_ne e]
        have hpr : ∀ q, (X r).parent = some q → IsReg E q := fun q hq => (hX.par r q hr hq).1
        obtain ⟨X', e', c', s', k'⟩ := ih (Function.update X r { X r with parent := real })
          (X r).parent (climbs_short hX hf' hp') hpr
          (climbValid_short hX hf' hp' f _ _ hpr h)
        refine ⟨X', ?_, c', ?_, ?_⟩
        · simp only [compress]
          rw [if_neg hne]; exact e'
        · intro q
          have := s' q
          by_cases e : q = r
          · subst e; rw [Function.update_self] at this; exact this
          · rw [Function.update_of_ne e] at this; exact this
        · intro q hq
          apply k'
          by_cases e : q = r
          · subst e; rw [Function.update_self, hnu]
          · rw [Function.update_of_ne e]; exact hq

/-! ### The first loop -/

/-- State after `t` turns of the first loop. -/
structure MarkInv (E : Env) (X0 : XForest) (arr : List Reg) (t : Nat) (s : PrepSt) : Prop where
  node : ∀ r, s.X r = { X0 r with pix := (s.X r).pix, kids := (s.X r).kids }
  done : ∀ j (h : j < arr.length), j < t → (s.X arr[j]).pix = 0 ∧ (s.X arr[j]).kids = 0
  todo : ∀ j (h : j < arr.length), t ≤ j → (s.X arr[j]).pix = (X0 arr[j]).pix
  ms : ∀ j (h : j < arr.length), j < t → (s.ms j).size = (X0 arr[j]).pix
  fresh : ∀ j, (s.ms j).mtype = .self ∧ (s.ms j).points = 0 ∧ (s.ms j).rect = Rect.zero
  heap : ∀ j (h : j < arr.length), j < t → s.heap arr[j] = some (j : Int)
  memSize : s.memSize = 0

theorem mark_loop {E : Env} {X0 : XForest} {arr : List Reg} (gm : Nat)
    (hreg : ∀ r ∈ arr, IsReg E r) (hnd : arr.Nodup)
    (hidx : ∀ r, IsReg E r → (X0 r).index = r.2) (heap0 : Reg → Option Int) :
    ∃ s, arr.zipIdx.foldlM (markOne E gm) ⟨X0, fun _ => Mser.fresh, heap0, 0⟩ = some s ∧
      MarkInv E X0 arr arr.length s := by
  apply foldlM_zipIdx (I := MarkInv E X0 arr)
  · intro t ht s inv
    have hr := hreg arr[t] (by simp)
    have hi : (s.X arr[t]).index = arr[t].2 := by rw [inv.node]; exact hidx _ hr
    have hne : ∀ j (h : j < arr.length), j ≠ t → arr[j] ≠ arr[t] := by
      intro j h e e'; exact e ((List.Nodup.getElem_inj_iff hnd).mp e')
    refine ⟨{ s with
        X := Function.update s.X arr[t] { s.X arr[t] with pix := 0, kids := 0 }
        ms := Function.update s.ms t
          { s.ms t with size := (s.X arr[t]).pix, gray := (s.X arr[t]).gray ^^^ gm }
        heap := Function.update s.heap arr[t] (some (t : Int)) }, ?_, ?_⟩
    · have hr' : arr[t].1 < E.n ∧ (s.X arr[t]).index < E.nreg arr[t].1 := by rw [hi]; exact hr
      have hpair : (arr[t].1, (s.X arr[t]).index) = arr[t] := by rw [hi]
      simp only [markOne]
      rw [if_pos hr', hpair]
    · refine ⟨?_, ?_, ?_, ?_, ?_, ?_, inv.memSize⟩
      · intro r
        by_cases e : r = arr[t]
        · subst e
          dsimp only
          rw [Function.update_self]
          dsimp only
          rw [inv.node]
        · dsimp only; rw [Function.update_of_ne e]; exact inv.node r
      · intro j h hj
        dsimp only
        by_cases e : j = t
        · subst e; rw [Function.update_self]; exact ⟨rfl, rfl⟩
        · rw [Function.update_of_ne (hne j h e)]; exact inv.done j h (by omega)
      · intro j h hj
        dsimp only
        rw [Function.update_of_ne (hne j h (by omega))]; exact inv.todo j h (by omega)
      · intro j h hj
        dsimp only
        by_cases e : j = t
        · subst e; rw [Function.update_self]; exact inv.todo j h (by omega)
        · rw [Function.update_of_ne e]; exact inv.ms j h (by omega)
      · intro j
        dsimp only
        by_cases e : j = t
        · subst e; rw [Function.update_self]; exact inv.fresh j
        · rw [Function.update_of_ne e]; exact inv.fresh j
      · intro j h hj
        dsimp only
        by_cases e : j = t
        · subst e; rw [Function.update_self]
        · rw [Function.update_of_ne (hne j h e)]; exact inv.heap j h (by omega)
  · refine ⟨fun _ => rfl, ?_, ?_, ?_, fun _ => ⟨rfl, rfl, rfl⟩, ?_, rfl⟩
    · intro j h hj; omega
    · intro j h hj; rfl
    · intro j h hj; omega
    · intro j h hj; omega

/-! ### The second loop -/

/-- The plan belongs to the array of reported regions. -/
structure Fitting (P : Plan) (nu : Reg → Option Reg) (arr : List Reg) (thr : Int) : Prop where
  N : P.N = arr.length
  up_some : ∀ j (h : j < arr.length) q, nu arr[j] = some q →
    ∃ i, ∃ h' : i < arr.length, arr[i] = q ∧ P.up j = some i
  up_none : ∀ j (h : j < arr.length), nu arr[j] = none → P.up j = none
  sh : ∀ j, j < P.N → (P.sh j = true ↔
    (P.kids j j).length = 0 ∨ ((P.full j).length : Int) ≤ thr)

/-- State after `t` turns of the second loop. -/
structure TypeInv (P : Plan) (E : Env) (rk : Reg → Nat) (F : Nat) (nu : Reg → Option Reg)
    (X0 : XForest) (arr : List Reg) (heap : Reg → Option Int) (t : Nat) (s : PrepSt) : Prop where
  climbs : Climbs E rk F nu s.X
  node : ∀ r, s.X r =
    { X0 r with parent := (s.X r).parent, pix := (s.X r).pix, kids := (s.X r).kids }
  pix : ∀ j (h : j < arr.length), (s.X arr[j]).pix = (P.accs t j).length
  kids : ∀ j (h : j < arr.length), (s.X arr[j]).kids = (P.kids t j).length
  par : ∀ j (h : j < arr.length), j < t → (s.X arr[j]).parent = nu arr[j]
  size : ∀ j, j < P.N → (s.ms j).size = (P.full j).length
  mtype : ∀ j, j < P.N → j < t → (s.ms j).mtype = if P.sh j then .share4 else .recursive4
  rect : ∀ j, j < P.N → (s.ms j).rect = Rect.zero
  memSize : s.memSize = (P.off t + P.cum 1 t + P.cum 2 t + P.cum 3 t : Nat)
  heap : s.heap = heap

theorem type_loop {P : Plan} {E : Env} {rk : Reg → Nat} {F fuel : Nat} {nu : Reg → Option Reg}
    {X0 : XForest} {arr : List Reg} {thr : Int} (ok : P.Ok) (hP : Fitting P nu arr thr)
    (hreg : ∀ r ∈ arr, IsReg E r) (hnd : arr.Nodup) (hF : F ≤ fuel) {s0 : PrepSt}
    (h0 : TypeInv P E rk F nu X0 arr s0.heap 0 s0) :
    ∃ s, arr.zipIdx.foldlM (typeOne thr fuel) s0 = some s ∧
      TypeInv P E rk F nu X0 arr s0.heap arr.length s := by
  apply foldlM_zipIdx (I := TypeInv P E rk F nu X0 arr s0.heap) _ _ _ _ h0
  intro t ht s inv
  have htN : t < P.N := by rw [hP.N]; exact ht
  have hr := hreg arr[t] (by simp)
  have hcl := climbValid_mono (inv.climbs.climb _ hr) hF
  have hk := inv.kids t ht
  have hp := inv.pix t ht
  have hm := inv.size t htN
  have hpr : ∀ q, (s.X arr[t]).parent = some q → IsReg E q :=
    fun q hq => (inv.climbs.par _ q hr hq).1
  have hsh : ((s.X arr[t]).kids = 0 ∨ ((s.ms t).size : Int) ≤ thr) ↔ P.sh t = true := by
    rw [hP.sh t htN, hk, hm]
  have hmem : s.memSize + (if (s.X arr[t]).kids = 0 ∨ ((s.ms t).size : Int) ≤ thr then
        4 + ((s.ms t).size : Int)
      else 4 + ((s.ms t).size : Int) - ((s.X arr[t]).pix : Int)
        + (2 + ((s.X arr[t]).kids : Int)) / 2)
      = (P.off (t + 1) + P.cum 1 (t + 1) + P.cum 2 (t + 1) + P.cum 3 (t + 1) : Nat) := by
    rw [inv.memSize, hm, hp, hk]
    have hfull : (P.full t).length = (P.own 0 t).length + (P.accs t t).length
        + (P.own 1 t).length + (P.own 2 t).length + (P.own 3 t).length := by
      simp [Plan.full]; omega
    simp only [Plan.off, Plan.cum, Plan.blk, Plan.cap, Plan.ci, Plan.ch, if_true]
    by_cases h : P.sh t = true
    · rw [if_pos (by rw [← hk, ← hm]; exact hsh.mpr h)]
      simp only [h, if_true]
      push_cast
      omega
    · rw [if_neg (by rw [← hk, ← hm]; exact fun e => h (hsh.mp e))]
      simp only [h, if_false]
      push_cast
      omega
  -- the forest after counting and the new parent of the current region
  obtain ⟨X1, hX1⟩ : ∃ X1, X1 = countChild s.X (s.ms t).size (nu arr[t]) := ⟨_, rfl⟩
  have x1 : ∀ r, X1 r = { s.X r with pix := (X1 r).pix, kids := (X1 r).kids } := by
    intro r
    rw [hX1]
    cases nu arr[t] with
    | none => rfl
    | some q =>
      simp only [countChild]
      by_cases e : r = q
      · subst e; rw [Function.update_self]
      · rw [Function.update_of_ne e]
  have hne : ∀ j (h : j < arr.length), j ≠ t → arr[j] ≠ arr[t] := by
    intro j h e e'; exact e ((List.Nodup.getElem_inj_iff hnd).mp e')
  have x1c : ∀ j (h : j < arr.length), (X1 arr[j]).pix = (P.accs (t + 1) j).length ∧
      (X1 arr[j]).kids = (P.kids (t + 1) j).length := by
    intro j h
    cases hn : nu arr[t] with
    | none =>
      have hu := hP.up_none t ht hn
      rw [hn] at hX1
      rw [Plan.accs_succ_ne (by rw [hu]; simp), Plan.kids_succ_ne (by rw [hu]; simp), hX1]
      exact ⟨inv.pix j h, inv.kids j h⟩
    | some q =>
      obtain ⟨i, hi, hq, hu⟩ := hP.up_some t ht q hn
      rw [hn] at hX1
      by_cases e : j = i
      · subst e
        rw [Plan.accs_succ hu, Plan.kids_succ hu, hX1, hq]
        simp only [countChild]
        rw [Function.update_self, List.length_append, List.length_append, ← hq, inv.pix j h,
          inv.kids j h, hm]
        exact ⟨rfl, rfl⟩
      · have hne' : arr[j] ≠ q := by
          rw [← hq]; intro e'; exact e ((List.Nodup.getElem_inj_iff hnd).mp e')
        rw [Plan.accs_succ_ne (by rw [hu]; simp; omega), Plan.kids_succ_ne (by rw [hu]; simp; omega),
          hX1]
        simp only [countChild]
        rw [Function.update_of_ne hne']
        exact ⟨inv.pix j h, inv.kids j h⟩
  have x1p : ∀ r, (X1 r).parent = (s.X r).parent ∧ (X1 r).flag = (s.X r).flag := by
    intro r; rw [x1 r]; exact ⟨rfl, rfl⟩
  have x2f : ∀ r, IsReg E r →
      (Function.update X1 arr[t] { X1 arr[t] with parent := nu arr[t] } r).flag = (s.X r).flag := by
    intro r _
    by_cases e : r = arr[t]
    · subst e; rw [Function.update_self]; exact (x1p _).2
    · rw [Function.update_of_ne e]; exact (x1p r).2
  have x2p : ∀ r, IsReg E r →
      (Function.update X1 arr[t] { X1 arr[t] with parent := nu arr[t] } r).parent
        = (s.X r).parent ∨
      (Function.update X1 arr[t] { X1 arr[t] with parent := nu arr[t] } r).parent = nu r := by
    intro r _
    by_cases e : r = arr[t]
    · subst e; rw [Function.update_self]; exact Or.inr rfl
    · rw [Function.update_of_ne e]; exact Or.inl (x1p r).1
  obtain ⟨X3, e3, c3, s3, k3⟩ := compress_spec (nu := nu) (E := E) (rk := rk) (F := F)
    (real := nu arr[t]) fuel
    (Function.update X1 arr[t] { X1 arr[t] with parent := nu arr[t] }) (s.X arr[t]).parent
    (climbs_short inv.climbs x2f x2p) hpr
    (climbValid_short inv.climbs x2f x2p fuel _ _ hpr hcl)
  refine ⟨{ s with
      X := X3
      ms := Function.update s.ms t { s.ms t with mtype :=
        if (s.X arr[t]).kids = 0 ∨ ((s.ms t).size : Int) ≤ thr then .share4 else .recursive4 }
      memSize := s.memSize + (if (s.X arr[t]).kids = 0 ∨ ((s.ms t).size : Int) ≤ thr then
        4 + ((s.ms t).size : Int)
      else 4 + ((s.ms t).size : Int) - ((s.X arr[t]).pix : Int)
        + (2 + ((s.X arr[t]).kids : Int)) / 2) }, ?_, ?_⟩
  · simp only [typeOne, hcl]
    rw [hX1] at e3
    rw [e3]
  · refine ⟨c3, ?_, ?_, ?_, ?_, ?_, ?_, ?_, hmem, inv.heap⟩
    · intro r
      have h1 := s3 r
      have h2 := inv.node r
      have h3 := x1 r
      dsimp only
      by_cases e : r = arr[t]
      · subst e
        rw [Function.update_self] at h1
        rw [h1]
        dsimp only
        rw [h3]
        dsimp only
        rw [h2]
      · rw [Function.update_of_ne e] at h1
        rw [h1]
        dsimp only
        rw [h3]
        dsimp only
        rw [h2]
    · intro j h
      dsimp only
      rw [s3]
      dsimp only
      by_cases e : j = t
      · subst e; rw [Function.update_self]; exact (x1c j h).1
      · rw [Function.update_of_ne (hne j h e)]; exact (x1c j h).1
    · intro j h
      dsimp only
      rw [s3]
      dsimp only
      by_cases e : j = t
      · subst e; rw [Function.update_self]; exact (x1c j h).2
      · rw [Function.update_of_ne (hne j h e)]; exact (x1c j h).2
    · intro j h hj
      apply k3
      by_cases e : j = t
      · subst e; rw [Function.update_self]
      · rw [Function.update_of_ne (hne j h e), (x1p _).1]; exact inv.par j h (by omega)
    · intro j hj
      dsimp only
      by_cases e : j = t
      · subst e; rw [Function.update_self]; exact hm
      · rw [Function.update_of_ne e]; exact inv.size j hj
    · intro j hj hjt
      dsimp only
      by_cases e : j = t
      · subst e
        rw [Function.update_self]
        dsimp only
        by_cases h : P.sh j = true
        · rw [if_pos (hsh.mpr h), if_pos h]
        · rw [if_neg (fun e => h (hsh.mp e)), if_neg h]
      · rw [Function.update_of_ne e]; exact inv.mtype j hj (by omega)
    · intro j hj
      dsimp only
      by_cases e : j = t
      · subst e; rw [Function.update_self]; exact inv.rect j hj
      · rw [Function.update_of_ne e]; exact inv.rect j hj

/-! ### Assigning -/

/-- The record of the nearest reported region. -/
def codeOf (arr : List Reg) : Option Reg → Int
  | none => -1
  | some q => (arr.idxOf q : Int)

theorem codeOf_get {arr : List Reg} (hnd : arr.Nodup) {j : Nat} (h : j < arr.length) :
    codeOf arr (some arr[j]) = (j : Int) := by
  simp only [codeOf, hnd.idxOf_getElem j h]

/-- Nearest reported region, the region itself included. -/
noncomputable def nearOf (X : XForest) (nu : Reg → Option Reg) (r : Reg) : Option Reg :=
  if (X r).flag = .valid then some r else nu r

/-- The state while region objects are assigned. -/
structure AssignInv (E : Env) (X2 : XForest) (nu : Reg → Option Reg) (arr : List Reg)
    (s : XForest × (Reg → Option Int)) : Prop where
  node : ∀ r, s.1 r = { X2 r with assigned := (s.1 r).assigned }
  heap : ∀ r, IsReg E r → (X2 r).flag = .valid ∨ (s.1 r).assigned = true →
    s.2 r = some (codeOf arr (nearOf X2 nu r))

theorem climbAssigned_spec {E : Env} {rk : Reg → Nat} {F : Nat} {nu : Reg → Option Reg}
    {X2 X : XForest} (h2 : Climbs E rk F nu X2)
    (hn : ∀ r, X r = { X2 r with assigned := (X r).assigned }) (f : Nat) :
    ∀ (o res : Option Reg), (∀ r, o = some r → IsReg E r) → climbValid X2 f o = some res →
      ∃ real, climbAssigned X f o = some real ∧ (real = none → res = none) ∧
        (∀ q, real = some q → IsReg E q ∧ ((X2 q).flag = .valid ∨ (X q).assigned = true) ∧
          nearOf X2 nu q = res) := by
  have hpar : ∀ r, (X r).parent = (X2 r).parent ∧ (X r).flag = (X2 r).flag := by
    intro r; rw [hn r]; exact ⟨rfl, rfl⟩
  induction f with
  | zero =>
    intro o res _ h
    cases o with
    | none => exact ⟨none, rfl, fun _ => (Option.some.inj h).symm, by simp⟩
    | some r => simp [climbValid] at h
  | succ f ih =>
    intro o res ho h
    cases o with
    | none => exact ⟨none, rfl, fun _ => (Option.some.inj h).symm, by simp⟩
    | some r =>
      have hr := ho r rfl
      simp only [climbValid] at h
      simp only [climbAssigned]
      by_cases hs : (X r).flag = .valid ∨ (X r).assigned = true
      · rw [if_pos hs]
        refine ⟨some r, rfl, by simp, ?_⟩
        intro q hq
        obtain rfl := Option.some.inj hq
        refine ⟨hr, by rw [← (hpar r).2]; exact hs, ?_⟩
        simp only [nearOf]
        by_cases hv : (X2 r).flag = .valid
        · rw [if_pos hv] at h ⊢; exact Option.some.inj h
        · rw [if_neg hv] at h ⊢
          exact climbValid_det (h2.climb r hr) h
      · rw [if_neg hs]
        rw [not_or] at hs
        rw [if_neg (by rw [← (hpar r).2]; exact hs.1)] at h
        rw [(hpar r).1]
        exact ih _ _ (fun q hq => (h2.par r q hr hq).1) h

theorem assignPath_spec {E : Env} {rk : Reg → Nat} {F : Nat} {nu : Reg → Option Reg}
    {X2 : XForest} {arr : List Reg} (h2 : Climbs E rk F nu X2)
    (hidx : ∀ r, IsReg E r → (X2 r).index = r.2) {real res : Option Reg} (f : Nat) :
    ∀ (s : XForest × (Reg → Option Int)) (o : Option Reg), AssignInv E X2 nu arr s →
      (∀ r, o = some r → IsReg E r) → climbValid X2 f o = some res →
      climbAssigned s.1 f o = some real →
      ∃ s', assignPath E real (codeOf arr res) f s o = some s' ∧ AssignInv E X2 nu arr s' ∧
        (∀ r, (s.1 r).assigned = true → (s'.1 r).assigned = true) ∧
        (∀ r, o = some r → o ≠ real → (s'.1 r).assigned = true) := by
  induction f with
  | zero =>
    intro s o inv _ h _
    cases o with
    | none => exact ⟨s, rfl, inv, fun _ h => h, by simp⟩
    | some r => simp [climbValid] at h
  | succ f ih =>
    intro s o inv ho h ha
    cases o with
    | none => exact ⟨s, rfl, inv, fun _ h => h, by simp⟩
    | some r =>
      have hr := ho r rfl
      have hpar : ∀ r, (s.1 r).parent = (X2 r).parent ∧ (s.1 r).flag = (X2 r).flag ∧
          (s.1 r).index = (X2 r).index := by
        intro r; rw [inv.node r]; exact ⟨rfl, rfl, rfl⟩
      simp only [climbAssigned] at ha
      by_cases hs : (s.1 r).flag = .valid ∨ (s.1 r).assigned = true
      · rw [if_pos hs] at ha
        refine ⟨s, ?_, inv, fun _ h => h, ?_⟩
        · simp only [assignPath]; rw [if_pos (Option.some.inj ha)]
        · intro q hq hne; exact absurd (Option.some.inj ha) hne
      · rw [if_neg hs] at ha
        rw [not_or] at hs
        have hv : (X2 r).flag ≠ .valid := by rw [← (hpar r).2.1]; exact hs.1
        simp only [climbValid] at h
        rw [if_neg hv] at h
        have hnu : nu r = res := climbValid_det (h2.climb r hr) h
        have hpr : ∀ q, (X2 r).parent = some q → IsReg E q ∧ rk q < rk r :=
          fun q hq => h2.par r q hr hq
        -- `real` is higher up
        have hreal : some r ≠ real := by
          rintro rfl
          have key : ∀ (g : Nat) (o : Option Reg), (∀ q, o = some q → IsReg E q ∧ rk q < rk r) →
              climbAssigned s.1 g o ≠ some (some r) := by
            intro g
            induction g with
            | zero => intro o ho' hc; cases o <;> simp [climbAssigned] at hc
            | succ g ihg =>
              intro o ho' hc
              cases o with
              | none => simp [climbAssigned] at hc
              | some q =>
                obtain ⟨hq, hrk⟩ := ho' q rfl
                simp only [climbAssigned] at hc
                split at hc
                · obtain rfl := Option.some.inj (Option.some.inj hc)
                  omega
                · refine ihg _ ?_ hc
                  intro p hp
                  rw [(hpar q).1] at hp
                  obtain ⟨h1, h3⟩ := h2.par q p hq hp
                  exact ⟨h1, by omega⟩
          exact key f _ (by rw [(hpar r).1]; exact hpr) ha
        have hix : (s.1 r).index = r.2 := by rw [(hpar r).2.2]; exact hidx r hr
        -- the way up from the parent does not see the update
        have key2 : ∀ (g : Nat) (o : Option Reg), (∀ q, o = some q → IsReg E q ∧ rk q < rk r) →
            climbAssigned (Function.update s.1 r { s.1 r with assigned := true }) g o
              = climbAssigned s.1 g o := by
          intro g
          induction g with
          | zero => intro o _; cases o <;> rfl
          | succ g ihg =>
            intro o ho'
            cases o with
            | none => rfl
            | some q =>
              obtain ⟨hq, hrk⟩ := ho' q rfl
              have hqr : q ≠ r := by rintro rfl; omega
              simp only [climbAssigned]
              rw [Function.update_of_ne hqr]
              split
              · rfl
              · apply ihg
                intro p hp
                rw [(hpar q).1] at hp
                obtain ⟨h1, h3⟩ := h2.par q p hq hp
                exact ⟨h1, by omega⟩
        have inv' : AssignInv E X2 nu arr
            (Function.update s.1 r { s.1 r with assigned := true },
              Function.update s.2 r (some (codeOf arr res))) := by
          refine ⟨?_, ?_⟩
          · intro q
            dsimp only
            by_cases e : q = r
            · subst e; rw [Function.update_self]
              dsimp only
              rw [inv.node q]
            · rw [Function.update_of_ne e]; exact inv.node q
          · intro q hq hor
            dsimp only at hor ⊢
            by_cases e : q = r
            · subst e
              rw [Function.update_self]
              simp only [nearOf, if_neg hv, hnu]
            · rw [Function.update_of_ne e] at hor ⊢
              exact inv.heap q hq hor
        obtain ⟨s', e', i', m', _⟩ := ih
          (Function.update s.1 r { s.1 r with assigned := true },
              Function.update s.2 r (some (codeOf arr res))) (X2 r).parent inv'
          (fun q hq => (hpr q hq).1) h (by
            dsimp only
            rw [key2 f _ hpr, ← (hpar r).1]; exact ha)
        have hself : (s'.1 r).assigned = true := m' r (by dsimp only; rw [Function.update_self])
        refine ⟨s', ?_, i', ?_, ?_⟩
        · simp only [assignPath]
          rw [if_neg hreal]
          have hr' : r.1 < E.n ∧ (s.1 r).index < E.nreg r.1 := by rw [hix]; exact hr
          have hpair : (r.1, (s.1 r).index) = r := by rw [hix]
          rw [if_pos hr', hpair]
          rw [← (hpar r).1] at e'
          exact e'
        · intro q hq
          by_cases e : q = r
          · subst e; exact hself
          · apply m'; dsimp only; rw [Function.update_of_ne e]; exact hq
        · intro q hq _
          obtain rfl := Option.some.inj hq
          exact hself

theorem mem_allRegs {E : Env} {r : Reg} : r ∈ allRegs E ↔ IsReg E r := by
  obtain ⟨k, e⟩ := r
  simp [allRegs, IsReg]

theorem assign_step {E : Env} {rk : Reg → Nat} {F fuel : Nat} {nu : Reg → Option Reg}
    {X2 : XForest} {arr : List Reg} (h2 : Climbs E rk F nu X2) (hF : F + 1 ≤ fuel)
    (hidx : ∀ r, IsReg E r → (X2 r).index = r.2) {r : Reg} (hr : IsReg E r) (s : XForest × (Reg → Option Int))
    (inv : AssignInv E X2 nu arr s) :
    ∃ s', assignOne E fuel s r = some s' ∧ AssignInv E X2 nu arr s' ∧
      ((X2 r).flag = .valid ∨ (s'.1 r).assigned = true) ∧
      (∀ q, (s.1 q).assigned = true → (s'.1 q).assigned = true) := by
  have hpar : ∀ r, (s.1 r).parent = (X2 r).parent ∧ (s.1 r).flag = (X2 r).flag ∧
      (s.1 r).index = (X2 r).index := by
    intro r; rw [inv.node r]; exact ⟨rfl, rfl, rfl⟩
  simp only [assignOne]
  by_cases hv : (s.1 r).flag = .valid
  · rw [if_pos hv]
    exact ⟨s, rfl, inv, Or.inl (by rw [← (hpar r).2.1]; exact hv), fun _ h => h⟩
  · rw [if_neg hv]
    by_cases ha : (s.1 r).assigned = true
    · rw [if_pos ha]
      exact ⟨s, rfl, inv, Or.inr ha, fun _ h => h⟩
    · rw [if_neg ha]
      have hv2 : (X2 r).flag ≠ .valid := by rw [← (hpar r).2.1]; exact hv
      obtain ⟨g, rfl⟩ : ∃ g, fuel = g + 1 := ⟨fuel - 1, by omega⟩
      have hcg : climbValid X2 g (X2 r).parent = some (nu r) :=
        climbValid_mono (h2.climb r hr) (by omega)
      have hcl : climbValid X2 (g + 1) (X2 r).parent = some (nu r) :=
        climbValid_mono (h2.climb r hr) (by omega)
      obtain ⟨real, hreal, hr0, hr1⟩ := climbAssigned_spec h2 inv.node (g + 1) _ _
        (fun q hq => (h2.par r q hr hq).1) hcl
      obtain ⟨real', hreal', _, _⟩ := climbAssigned_spec h2 inv.node g _ _
        (fun q hq => (h2.par r q hr hq).1) hcg
      -- more fuel does not change the outcome
      have mono : ∀ (f : Nat) (o a : Option Reg), climbAssigned s.1 f o = some a →
          climbAssigned s.1 (f + 1) o = some a := by
        intro f
        induction f with
        | zero => intro o a h; cases o <;> simp_all [climbAssigned]
        | succ f ihf =>
          intro o a h
          cases o with
          | none => exact h
          | some q =>
            rw [climbAssigned] at h ⊢
            split
            · rename_i hs; rw [if_pos hs] at h; exact h
            · rename_i hs; rw [if_neg hs] at h; exact ihf _ _ h
      have heq : real' = real := by
        have := mono g _ _ hreal'
        rw [hreal] at this
        exact (Option.some.inj this).symm
      have hself : climbAssigned s.1 (g + 1) (some r) = some real := by
        simp only [climbAssigned]
        rw [if_neg (by rw [not_or]; exact ⟨hv, ha⟩), (hpar r).1, ← heq]
        exact hreal'
      have hselfv : climbValid X2 (g + 1) (some r) = some (nu r) := by
        simp only [climbValid]; rw [if_neg hv2]; exact hcg
      obtain ⟨s', e', i', m', d'⟩ := assignPath_spec (arr := arr) h2 hidx (real := real)
        (res := nu r) (g + 1) s (some r) inv (fun q hq => by
          obtain rfl := Option.some.inj hq; exact hr) hselfv hself
      have hne : some r ≠ real := by
        rintro rfl
        obtain ⟨_, h3, _⟩ := hr1 r rfl
        rcases h3 with h3 | h3
        · exact hv2 h3
        · exact ha h3
      refine ⟨s', ?_, i', Or.inr (d' r rfl hne), m'⟩
      rw [(hpar r).1, hreal]
      cases hre : real with
      | none =>
        dsimp only
        rw [hr0 hre] at e'
        rw [hre] at e'
        exact e'
      | some q =>
        obtain ⟨hq, hor, hnear⟩ := hr1 q hre
        dsimp only
        rw [(hpar q).2.2, hidx q hq, inv.heap q hq hor, hnear]
        dsimp only
        rw [hre] at e'
        exact e'

theorem assign_loop_of {E : Env} {rk : Reg → Nat} {F fuel : Nat} {nu : Reg → Option Reg}
    {X2 : XForest} {arr : List Reg} (h2 : Climbs E rk F nu X2) (hF : F + 1 ≤ fuel)
    (hidx : ∀ r, IsReg E r → (X2 r).index = r.2) (s : XForest × (Reg → Option Int))
    (inv : AssignInv E X2 nu arr s)
    {f : XForest × (Reg → Option Int) → Reg → Option (XForest × (Reg → Option Int))}
    (hf : ∀ r, IsReg E r → ∀ s, AssignInv E X2 nu arr s → f s r = assignOne E fuel s r) :
    ∃ s', (allRegs E).foldlM f s = some s' ∧ AssignInv E X2 nu arr s' ∧
      ∀ r, IsReg E r → s'.2 r = some (codeOf arr (nearOf X2 nu r)) := by
  have hstep : ∀ r ∈ allRegs E, ∀ s : XForest × (Reg → Option Int), AssignInv E X2 nu arr s →
      ∃ s', f s r = some s' ∧ AssignInv E X2 nu arr s' ∧
        ((X2 r).flag = .valid ∨ (s'.1 r).assigned = true) ∧
        (∀ q, (s.1 q).assigned = true → (s'.1 q).assigned = true) := by
    intro r hr s inv
    rw [mem_allRegs] at hr
    rw [hf r hr s inv]
    exact assign_step h2 hF hidx hr s inv
  obtain ⟨s', e', i', d', -⟩ := foldlM_inv f (AssignInv E X2 nu arr)
    (fun s r => (X2 r).flag = .valid ∨ (s.1 r).assigned = true) (allRegs E)
    (fun r hr s inv => by
      obtain ⟨s', a, b, c, _⟩ := hstep r hr s inv
      exact ⟨s', a, b, c⟩)
    (fun r hr q s s' inv e h => by
      obtain ⟨s1, a, b, c, d⟩ := hstep r hr s inv
      rw [e] at a
      obtain rfl := Option.some.inj a
      rcases h with h | h
      · exact Or.inl h
      · exact Or.inr (d q h)) s inv
  refine ⟨s', e', i', ?_⟩
  intro r hr
  exact i'.heap r hr (d' r (mem_allRegs.mpr hr))

theorem assign_loop {E : Env} {rk : Reg → Nat} {F fuel : Nat} {nu : Reg → Option Reg}
    {X2 : XForest} {arr : List Reg} (h2 : Climbs E rk F nu X2) (hF : F + 1 ≤ fuel)
    (hidx : ∀ r, IsReg E r → (X2 r).index = r.2) (s : XForest × (Reg → Option Int))
    (inv : AssignInv E X2 nu arr s) :
    ∃ s', (allRegs E).foldlM (assignOne E fuel) s = some s' ∧ AssignInv E X2 nu arr s' ∧
      ∀ r, IsReg E r → s'.2 r = some (codeOf arr (nearOf X2 nu r)) :=
  assign_loop_of h2 hF hidx s inv fun _ _ _ _ => rfl

/-! ### Counting -/

theorem count_loop {E : Env} {N k : Nat} {heap : Reg → Option Int} {label : Nat → Nat}
    {link : Nat → Int}
    (hlab : ∀ rc ∈ scan (E.pi k).width (E.pi k).height,
      label (Flood.idx (E.pi k).width rc.2 rc.1) < E.nreg k ∧
      heap (k, label (Flood.idx (E.pi k).width rc.2 rc.1))
        = some (link (Flood.idx (E.pi k).width rc.2 rc.1)))
    (hlink : ∀ rc ∈ scan (E.pi k).width (E.pi k).height,
      link (Flood.idx (E.pi k).width rc.2 rc.1) = -1 ∨
      ∃ j, j < N ∧ link (Flood.idx (E.pi k).width rc.2 rc.1) = ((j : Nat) : Int)) :
    ∀ (l pre : List (Nat × Nat)) (s : CountSt),
      scan (E.pi k).width (E.pi k).height = pre ++ l →
      (∀ rc ∈ pre, s.link (Flood.idx (E.pi k).width rc.2 rc.1)
        = link (Flood.idx (E.pi k).width rc.2 rc.1)) →
      (∀ j, j < N → s.cnt j = ((linked E k link j pre).length : Int)) →
      (s.total = (((List.range N).map fun j => (linked E k link j pre).length).sum : Nat)) →
      ∃ s', l.foldlM (countOne E N heap k label) s = some s' ∧
        (∀ rc ∈ pre ++ l, s'.link (Flood.idx (E.pi k).width rc.2 rc.1)
          = link (Flood.idx (E.pi k).width rc.2 rc.1)) ∧
        (∀ j, j < N → s'.cnt j = ((linked E k link j (pre ++ l)).length : Int)) ∧
        (s'.total
          = (((List.range N).map fun j => (linked E k link j (pre ++ l)).length).sum : Nat)) := by
  intro l
  induction l with
  | nil =>
    intro pre s _ h1 h2 h3
    rw [List.append_nil]
    exact ⟨s, rfl, h1, h2, h3⟩
  | cons rc l ih =>
    intro pre s hscan h1 h2 h3
    have hmem : rc ∈ scan (E.pi k).width (E.pi k).height := by rw [hscan]; simp
    have hsplit : pre ++ rc :: l = (pre ++ [rc]) ++ l := by simp
    obtain ⟨hlt, hheap⟩ := hlab rc hmem
    have hlk' : ∀ rc' ∈ pre ++ [rc],
        Function.update s.link (Flood.idx (E.pi k).width rc.2 rc.1)
          (link (Flood.idx (E.pi k).width rc.2 rc.1)) (Flood.idx (E.pi k).width rc'.2 rc'.1)
        = link (Flood.idx (E.pi k).width rc'.2 rc'.1) := by
      intro rc' hrc'
      by_cases e : Flood.idx (E.pi k).width rc'.2 rc'.1 = Flood.idx (E.pi k).width rc.2 rc.1
      · rw [e, Function.update_self]
      · rw [Function.update_of_ne e]
        rw [List.mem_append] at hrc'
        rcases hrc' with h | h
        · exact h1 rc' h
        · simp only [List.mem_singleton] at h; rw [h] at e; exact absurd rfl e
    rcases hlink rc hmem with hl | ⟨j, hj, hl⟩
    · have hlk : ∀ i : Nat, linked E k link i (pre ++ [rc]) = linked E k link i pre := by
        intro i
        rw [linked_append]
        simp only [linked, List.filter_cons, hl, List.filter_nil]
        rw [if_neg]
        · simp
        · simp only [decide_eq_true_eq]; omega
      obtain ⟨s', e', a, b, c⟩ := ih (pre ++ [rc])
        { s with
          link := Function.update s.link (Flood.idx (E.pi k).width rc.2 rc.1)
            (link (Flood.idx (E.pi k).width rc.2 rc.1)) } (by rw [hscan, hsplit]) hlk'
        (by intro i hi; rw [hlk]; exact h2 i hi) (by simp only [hlk]; exact h3)
      refine ⟨s', ?_, by rw [hsplit]; exact a, by rw [hsplit]; exact b, by rw [hsplit]; exact c⟩
      rw [List.foldlM_cons]
      simp only [countOne]
      rw [if_pos hlt, hheap]
      dsimp only
      rw [if_pos hl]
      exact e'
    · have hlkj : (linked E k link j (pre ++ [rc])).length = (linked E k link j pre).length + 1 := by
        rw [linked_append, List.length_append]; congr 1
        simp only [linked, List.filter_cons, hl]
        simp
      have hlk : ∀ i : Nat, i ≠ j → linked E k link i (pre ++ [rc]) = linked E k link i pre := by
        intro i hi
        rw [linked_append]
        simp only [linked, List.filter_cons, hl, List.filter_nil]
        rw [if_neg]
        · simp
        · simp only [decide_eq_true_eq]; omega
      have hsum : ∀ n, ((List.range n).map fun i => (linked E k link i (pre ++ [rc])).length).sum
          = ((List.range n).map fun i => (linked E k link i pre).length).sum
            + if j < n then 1 else 0 := by
        intro n
        induction n with
        | zero => simp
        | succ n ihn =>
          rw [List.range_succ, List.map_append, List.map_append, List.sum_append, List.sum_append,
            ihn]
          simp only [List.map_cons, List.map_nil, List.sum_cons, List.sum_nil]
          by_cases e : n = j
          · subst e; rw [hlkj, if_neg (by omega), if_pos (by omega)]; omega
          · rw [hlk n e]
            by_cases h : j < n
            · rw [if_pos h, if_pos (by omega)]; omega
            · rw [if_neg h, if_neg (by omega)]; omega
      obtain ⟨s', e', a, b, c⟩ := ih (pre ++ [rc])
        { link := Function.update s.link (Flood.idx (E.pi k).width rc.2 rc.1)
            (link (Flood.idx (E.pi k).width rc.2 rc.1)),
          cnt := Function.update s.cnt j (s.cnt j + 1), total := s.total + 1 }
        (by rw [hscan, hsplit]) hlk'
        (by
          intro i hi
          dsimp only
          by_cases e : i = j
          · subst e; rw [Function.update_self, hlkj, h2 i hi]; push_cast; rfl
          · rw [Function.update_of_ne e, hlk i e]; exact h2 i hi)
        (by
          dsimp only
          rw [h3, hsum N, if_pos hj]; push_cast; rfl)
      refine ⟨s', ?_, by rw [hsplit]; exact a, by rw [hsplit]; exact b, by rw [hsplit]; exact c⟩
      rw [List.foldlM_cons]
      simp only [countOne]
      rw [if_pos hlt, hheap]
      dsimp only
      rw [if_neg (by omega), if_pos (by omega), hl, Int.toNat_natCast]
      rw [hl] at e'
      exact e'

end Verif.Extract
