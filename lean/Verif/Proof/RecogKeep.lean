import Verif.Proof.Connect
import Verif.Model.Recognize

/-!
# Recognition leaves the links of merged regions alone
-/

namespace Verif.Recog

open Function (update)

variable {ι : Type} [DecidableEq ι]

/-- Merged regions keep their mark and their link, and no region becomes merged. -/
structure Keeps (R R' : RForest ι) : Prop where
  parent : ∀ r, (R r).flag = .merged → (R' r).parent = (R r).parent
  flag : ∀ r, (R' r).flag = .merged ↔ (R r).flag = .merged

omit [DecidableEq ι] in
theorem Keeps.refl (R : RForest ι) : Keeps R R := ⟨fun _ _ => rfl, fun _ => Iff.rfl⟩

omit [DecidableEq ι] in
theorem Keeps.trans {R R' R'' : RForest ι} (h : Keeps R R') (h' : Keeps R' R'') : Keeps R R'' :=
  ⟨fun r hr => (h'.parent r ((h.flag r).2 hr)).trans (h.parent r hr),
    fun r => (h'.flag r).trans (h.flag r)⟩

theorem keeps_update {R : RForest ι} {r : ι} {x : RNode ι} (h : (R r).flag ≠ .merged)
    (hx : x.flag ≠ .merged) : Keeps R (update R r x) := by
  constructor
  · intro s hs
    by_cases e : s = r
    · subst e; exact absurd hs h
    · rw [Function.update_of_ne e]
  · intro s
    by_cases e : s = r
    · subst e; simp [h, hx]
    · rw [Function.update_of_ne e]

theorem keeps_setParent {R : RForest ι} {r : ι} {p : Option ι} (h : (R r).flag ≠ .merged) :
    Keeps R (setParent R r p) := keeps_update h h

theorem keeps_setFlag {R : RForest ι} {r : ι} {f : Flag} (h : (R r).flag ≠ .merged) (hf : f ≠ .merged) :
    Keeps R (setFlag R r f) := keeps_update h hf

theorem keeps_setVar {R : RForest ι} {r : ι} {v : ℚ} (h : (R r).flag ≠ .merged) :
    Keeps R (setVar R r v) := keeps_update h h

theorem keeps_setCalc {R : RForest ι} {r : ι} (h : (R r).flag ≠ .merged) :
    Keeps R (setCalc R r) := keeps_update h h

omit [DecidableEq ι] in
theorem chase_live {R : RForest ι} : ∀ {fuel : Nat} {o : Option ι} {q : ι},
    Connect.chase (toForest R) fuel o = some (some q) → (R q).flag ≠ .merged
  | fuel, none, q, h => by cases fuel <;> simp [Connect.chase] at h
  | 0, some r, q, h => by
    simp only [Connect.chase] at h
    split at h
    · cases h
    · rename_i hm
      obtain rfl := Option.some.inj (Option.some.inj h)
      intro e
      exact hm (by simp [toForest, e])
  | fuel + 1, some r, q, h => by
    simp only [Connect.chase] at h
    split at h
    · exact chase_live h
    · rename_i hm
      obtain rfl := Option.some.inj (Option.some.inj h)
      intro e
      exact hm (by simp [toForest, e])

theorem climb_keeps (own : ι → Bool) (fuel : Nat) (thr : Int) :
    ∀ (n : Nat) (R : RForest ι) (start : ι) (o : Option ι) (R' : RForest ι) (s : ι) (t : Option ι),
      (∀ p, o = some p → (R p).flag ≠ .merged) → climb own fuel thr n R start o = some (R', s, t) → Keeps R R'
  | n, R, start, none, R', s, t, _, h => by
    cases n <;> · simp only [climb, Option.some.injEq, Prod.mk.injEq] at h; rw [← h.1]; exact .refl R
  | 0, R, start, some p, R', s, t, _, h => by
    simp only [climb] at h
    split at h
    · cases h
    · simp only [Option.some.injEq, Prod.mk.injEq] at h; rw [← h.1]; exact .refl R
  | n + 1, R, start, some p, R', s, t, ho, h => by
    simp only [climb] at h
    split at h
    · cases hq : realParent R fuel p with
      | none => rw [hq] at h; cases h
      | some q =>
        rw [hq] at h
        dsimp only at h
        have hk : Keeps R (if own p then setParent R p q else R) := by
          split
          · exact keeps_setParent (ho p rfl)
          · exact .refl R
        refine hk.trans (climb_keeps own fuel thr n _ p q R' s t ?_ h)
        intro x hx
        subst hx
        exact (hk.flag x).not.2 (chase_live hq)
    · simp only [Option.some.injEq, Prod.mk.injEq] at h; rw [← h.1]; exact .refl R

theorem calcVar_keeps {cfg : Cfg} {own : ι → Bool} {fuel : Nat} {R R' : RForest ι} {r : ι}
    (hr : (R r).flag ≠ .merged) (h : calcVar cfg own fuel R r = some R') : Keeps R R' := by
  simp only [calcVar] at h
  cases hp : realParent R fuel r with
  | none => rw [hp] at h; cases h
  | some p =>
    rw [hp] at h
    dsimp only at h
    have k1 := keeps_setParent (p := p) hr
    cases hc : climb own fuel ((R r).gray + cfg.delta) 256 (setParent R r p) r p with
    | none => rw [hc] at h; cases h
    | some x =>
      obtain ⟨R1, s, t⟩ := x
      rw [hc] at h
      have k2 := k1.trans (climb_keeps own fuel _ 256 _ r p R1 s t (by
        intro x hx
        subst hx
        exact (k1.flag x).not.2 (chase_live hp)) hc)
      rw [← Option.some.inj h]
      exact k2.trans (keeps_setVar ((k2.flag r).not.2 hr))

theorem workerVisit_keeps {cfg : Cfg} {pidx : ι → Nat} {k fuel : Nat} {R R' : RForest ι} {r : ι}
    (h : workerVisit cfg pidx k fuel R r = some R') : Keeps R R' := by
  simp only [workerVisit] at h
  split at h
  · rename_i hr
    cases hc : calcVar cfg (fun x => pidx x == k) fuel R r with
    | none => rw [hc] at h; cases h
    | some R1 =>
      rw [hc] at h
      have k1 := calcVar_keeps hr hc
      have hr1 := (k1.flag r).not.2 hr
      dsimp only at h
      split at h
      · rw [← Option.some.inj h]; exact k1.trans (keeps_setFlag hr1 (by decide))
      · split at h
        · rw [← Option.some.inj h]; exact k1.trans (keeps_setFlag hr1 (by decide))
        · rw [← Option.some.inj h]; exact k1
  · rw [← Option.some.inj h]; exact .refl R

theorem foldlM_keeps {σ β : Type} {f : σ → β → Option σ} {g : σ → RForest ι}
    (hf : ∀ s b s', f s b = some s' → Keeps (g s) (g s')) (l : List β) :
    ∀ s s', l.foldlM f s = some s' → Keeps (g s) (g s') := by
  induction l with
  | nil => intro s s' h; obtain rfl := Option.some.inj h; exact .refl _
  | cons b l ih =>
    intro s s' h
    rw [List.foldlM_cons] at h
    cases hb : f s b with
    | none => rw [hb] at h; cases h
    | some s1 => rw [hb] at h; exact (hf s b s1 hb).trans (ih s1 s' h)

omit [DecidableEq ι] in
theorem count_R (s : RSt ι) (g : Nat) (d : Int) : (s.count g d).R = s.R := rfl

theorem nmsPair_keeps (cfg : Cfg) (s : RSt ι) (r p : ι) : Keeps s.R (nmsPair cfg s r p).R := by
  have hcount : ∀ (b : Bool) (g : Nat), (if b = true then s.count g (-1) else s).R = s.R := by
    intro b g; cases b <;> rfl
  simp only [nmsPair]
  split
  · split
    · rename_i hy
      dsimp only
      rw [hcount]
      exact keeps_setFlag (by rw [hy]; decide) (by decide)
    · exact .refl _
  · split
    · split
      · rename_i hy
        dsimp only
        rw [hcount]
        exact keeps_setFlag (by rw [hy]; decide) (by decide)
      · exact .refl _
    · exact .refl _

theorem accelVisit_keeps {cfg : Cfg} {pidx : ι → Nat} {k cap : Nat} {a a' : AccSt ι} {r : ι}
    (h : accelVisit cfg pidx k cap a r = some a') : Keeps a.st.R a'.st.R := by
  have go : ∀ (b : AccSt ι) (o : Option ι), (match o with
      | none => none
      | some p =>
        let y := b.st.R p
        if pidx p ≠ k then
          if y.gray = (a.st.R r).gray + 1 then
            if b.deferred.length < cap then some { b with deferred := b.deferred ++ [r] } else none
          else some b
        else if cfg.nms < 0 ∨ (a.st.R r).var < 0 then some b
        else if 0 ≤ y.var ∧ y.gray = (a.st.R r).gray + 1 then some { b with st := nmsPair cfg b.st r p }
        else some b) = some a' → Keeps b.st.R a'.st.R := by
    intro b o h
    cases o with
    | none => cases h
    | some p =>
      dsimp only at h
      split at h
      · split at h
        · split at h
          · rw [← Option.some.inj h]; exact .refl _
          · cases h
        · rw [← Option.some.inj h]; exact .refl _
      · split at h
        · rw [← Option.some.inj h]; exact .refl _
        · split at h
          · rw [← Option.some.inj h]; exact nmsPair_keeps ..
          · rw [← Option.some.inj h]; exact .refl _
  simp only [accelVisit] at h
  split at h
  · rw [← Option.some.inj h]; exact .refl _
  · rename_i hm
    split at h
    · exact (keeps_setCalc hm).trans (go _ _ h)
    · cases hp : (a.st.R r).parent with
      | none => rw [hp] at h; rw [← Option.some.inj h]; exact .refl _
      | some p =>
        rw [hp] at h
        dsimp only at h
        split at h
        · rw [← Option.some.inj h]; exact .refl _
        · exact go a (some p) h

theorem accelThread_keeps {cfg : Cfg} {pidx : ι → Nat} {fuel : Nat} {cap : Nat → Nat} {regs : Nat → List ι}
    {k : Nat} {R : RForest ι} {a : AccSt ι} (h : accelThread cfg pidx fuel cap regs k R = some a) :
    Keeps R a.st.R := by
  simp only [accelThread] at h
  cases hw : worker cfg pidx fuel regs R k with
  | none => rw [hw] at h; cases h
  | some R1 =>
    rw [hw] at h
    have k1 : Keeps R R1 := foldlM_keeps (g := fun R => R) (fun _ _ _ h => workerVisit_keeps h) _ _ _ hw
    exact k1.trans (foldlM_keeps (g := fun a : AccSt ι => a.st.R) (fun _ _ _ h => accelVisit_keeps h) _ _ _ h)

theorem accelThreads_keeps {cfg : Cfg} {pidx : ι → Nat} {fuel : Nat} {cap : Nat → Nat} {regs : Nat → List ι} :
    ∀ (ks : List Nat) (a b : AccSt ι), accelThreads cfg pidx fuel cap regs ks a = some b → Keeps a.st.R b.st.R
  | [], a, b, h => by obtain rfl := Option.some.inj h; exact .refl _
  | k :: ks, a, b, h => by
    simp only [accelThreads] at h
    cases ht : accelThread cfg pidx fuel cap regs k a.st.R with
    | none => rw [ht] at h; cases h
    | some c =>
      rw [ht] at h
      dsimp only at h
      have k2 := accelThreads_keeps ks _ b h
      exact (accelThread_keeps ht).trans k2

theorem deferredNms_keeps {cfg : Cfg} {s s' : RSt ι} {r : ι} (h : deferredNms cfg s r = some s') :
    Keeps s.R s'.R := by
  simp only [deferredNms] at h
  cases hp : (s.R r).parent with
  | none => rw [hp] at h; cases h
  | some p =>
    rw [hp] at h
    dsimp only at h
    split at h
    · rw [← Option.some.inj h]; exact .refl _
    · split at h
      · rw [← Option.some.inj h]; exact nmsPair_keeps ..
      · rw [← Option.some.inj h]; exact .refl _

theorem selectAccel_keeps {cfg : Cfg} {pidx : ι → Nat} {fuel n : Nat} {cap : Nat → Nat} {regs : Nat → List ι}
    {R : RForest ι} {s : RSt ι} (h : selectAccel cfg pidx fuel n cap regs R = some s) : Keeps R s.R := by
  simp only [selectAccel] at h
  cases ht : accelThreads cfg pidx fuel cap regs (List.range n) ⟨⟨R, fun _ => 0, 0⟩, []⟩ with
  | none => rw [ht] at h; cases h
  | some a =>
    rw [ht] at h
    have k1 := accelThreads_keeps _ _ _ ht
    dsimp only at h
    split at h
    · exact k1.trans (foldlM_keeps (g := fun s : RSt ι => s.R) (fun _ _ _ h => deferredNms_keeps h) _ _ _ h)
    · rw [← Option.some.inj h]; exact k1

theorem setFlag_parent (R : RForest ι) (x r : ι) (f : Flag) : (setFlag R x f r).parent = (R r).parent := by
  by_cases e : r = x
  · subst e; simp [setFlag]
  · simp [setFlag, Function.update_of_ne e]

theorem markGroup_parent (R : RForest ι) (g : List ι) (mid : Nat) (r : ι) :
    (markGroup R g mid r).parent = (R r).parent := by
  simp only [markGroup]
  generalize List.range g.length = l
  induction l generalizing R with
  | nil => rfl
  | cons j l ih =>
    rw [List.foldl_cons, ih]
    cases g[j]? with
    | none => rfl
    | some x => exact setFlag_parent ..

theorem dedup_parent {cfg : Cfg} {R : RForest ι} {arr : List ι} {out : Recognized ι}
    (h : dedup cfg R arr = some out) (r : ι) : (out.R r).parent = (R r).parent := by
  have gen : ∀ (l : List ι) (s s' : DSt ι), l.foldlM (dedupStep cfg) s = some s' →
      (s'.R r).parent = (s.R r).parent := by
    intro l
    induction l with
    | nil => intro s s' h; obtain rfl := Option.some.inj h; rfl
    | cons x l ih =>
      intro s s' h
      rw [List.foldlM_cons] at h
      cases hb : dedupStep cfg s x with
      | none => rw [hb] at h; cases h
      | some s1 =>
        rw [hb] at h
        rw [ih s1 s' h]
        simp only [dedupStep] at hb
        split at hb
        · rw [← Option.some.inj hb]
        · cases hg : group cfg s.R x with
          | none => rw [hg] at hb; cases hb
          | some y => rw [hg] at hb; rw [← Option.some.inj hb]; exact markGroup_parent ..
  simp only [dedup] at h
  cases hd : arr.foldlM (dedupStep cfg) ⟨R, 0⟩ with
  | none => rw [hd] at h; cases h
  | some s => rw [hd] at h; rw [← Option.some.inj h]; exact gen arr _ s hd

theorem keepAll_parent (R : RForest ι) (arr : List ι) (r : ι) :
    ((keepAll R arr).R r).parent = (R r).parent := by
  simp only [keepAll]
  induction arr generalizing R with
  | nil => rfl
  | cons x l ih => rw [List.foldl_cons, ih]; exact setFlag_parent ..

/-- Recognition with four threads leaves the links of merged regions alone. -/
theorem recognizeAccel_parent {cfg : Cfg} {pidx : ι → Nat} {fuel n : Nat} {cap : Nat → Nat}
    {regs : Nat → List ι} {msize exceed : Nat} {R : RForest ι} {out : Recognized ι}
    (h : recognizeAccel cfg pidx fuel n cap regs msize exceed R = some out) {r : ι}
    (hr : (R r).flag = .merged) : (out.R r).parent = (R r).parent := by
  simp only [recognizeAccel] at h
  cases hs : selectAccel cfg pidx fuel n cap regs R with
  | none => rw [hs] at h; cases h
  | some s =>
    rw [hs] at h
    dsimp only at h
    rw [← (selectAccel_keeps hs).parent r hr]
    cases ha : grayOrder s ((List.range n).flatMap regs)
        (reserve msize (startIndex s.lev 256).toNat exceed).1 with
    | none => rw [ha] at h; cases h
    | some arr =>
      rw [ha] at h
      dsimp only at h
      split at h
      · exact dedup_parent h r
      · rw [← Option.some.inj h]; exact keepAll_parent ..

end Verif.Recog
