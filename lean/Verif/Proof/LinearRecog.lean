import Verif.Model.LinearRecog
import Verif.Proof.RecogMain

/-!
# Proof: recognition of the linear detector

Without merged regions the selection of the linear detector is that of V2 with one thread.
-/

namespace Verif.Linear

open Function (update)
open Verif.Recog Verif.Spec

variable {ι : Type} [DecidableEq ι] {cfg : Cfg} {R : RForest ι} {s : RSt ι}

/-- No region is merged. -/
def NoMerged (R : RForest ι) : Prop := ∀ r, (R r).flag ≠ .merged

omit [DecidableEq ι] in
theorem NoMerged.realParent (h : NoMerged R) (fuel : Nat) (r : ι) : realParent R fuel r = some (R r).parent := by
  unfold Recog.realParent
  cases hp : (R r).parent with
  | none => simp [Connect.chase]
  | some p =>
    have := h p
    cases fuel <;> simp [Connect.chase, toForest, this]

theorem setParent_same (R : RForest ι) (r : ι) : setParent R r (R r).parent = R := by
  unfold Recog.setParent
  exact Function.update_eq_self r R

theorem climb_eq (h : NoMerged R) (own : ι → Bool) (fuel : Nat) (thr : Int) :
    ∀ (n : Nat) (start : ι) (o : Option ι), climb own fuel thr n R start o =
      (climbL R thr n start o).map fun x => (R, x.1, x.2) := by
  intro n
  induction n with
  | zero =>
    intro start o
    cases o with
    | none => simp [climb, climbL]
    | some p =>
      unfold climb climbL
      by_cases hp : ((R p).gray : Int) ≤ thr <;> simp [hp]
  | succ n ih =>
    intro start o
    cases o with
    | none => simp [climb, climbL]
    | some p =>
      unfold climb climbL
      by_cases hp : ((R p).gray : Int) ≤ thr
      · simp only [hp, if_true]
        rw [h.realParent]
        simp only [setParent_same, ite_self]
        exact ih p (R p).parent
      · simp [hp]

theorem calcVar_eq (h : NoMerged R) (own : ι → Bool) (fuel : Nat) (r : ι) :
    calcVar cfg own fuel R r = calcVarL cfg R r := by
  unfold calcVar calcVarL
  simp only [h.realParent, setParent_same, climb_eq h]
  cases climbL R ((R r).gray + cfg.delta) 256 r (R r).parent <;> rfl

theorem calcVarL_flag {R' : RForest ι} {r : ι} (h : calcVarL cfg R r = some R') :
    ∀ x, (R' x).flag = (R x).flag := by
  unfold calcVarL at h
  cases hc : climbL R ((R r).gray + cfg.delta) 256 r (R r).parent with
  | none => simp [hc] at h
  | some y =>
    simp only [hc, Option.some.injEq] at h
    subst h
    intro x
    by_cases hx : x = r
    · subst hx; simp [setVar]
    · simp [setVar, Function.update_of_ne hx]

/-- What a visit does to flags. -/
theorem visitL_flag {s' : RSt ι} {r : ι} (h : visitL cfg s r = some s') :
    (∀ x, x ≠ r → (s'.R x).flag = (s.R x).flag) ∧ ((s'.R r).flag = (s.R r).flag ∨ (s'.R r).flag = .invalid) := by
  have hm : ∀ (R' : RForest ι), (if 0 < cfg.delta then calcVarL cfg s.R r else some s.R) = some R' →
      ∀ x, (R' x).flag = (s.R x).flag := by
    intro R' e
    by_cases hd : 0 < cfg.delta
    · rw [if_pos hd] at e; exact calcVarL_flag e
    · rw [if_neg hd] at e; cases e; exact fun _ => rfl
  unfold visitL at h
  cases e : (if 0 < cfg.delta then calcVarL cfg s.R r else some s.R) with
  | none => rw [e] at h; simp at h
  | some R' =>
    rw [e] at h
    have hR := hm R' e
    simp only at h
    split at h
    · cases h
      exact ⟨fun x hx => by show (setFlag R' r .invalid x).flag = _; rw [setFlag_flag_ne R' _ hx, hR], .inr (setFlag_self R' r _)⟩
    · split at h
      · cases h
        exact ⟨fun x hx => by show (setFlag R' r .invalid x).flag = _; rw [setFlag_flag_ne R' _ hx, hR], .inr (setFlag_self R' r _)⟩
      · cases h
        exact ⟨fun x _ => hR x, .inl (hR r)⟩

theorem serialVisit_eq (h : NoMerged s.R) (fuel : Nat) {r : ι} (hr : (s.R r).flag = .unknown) :
    serialVisit cfg fuel s r = visitL cfg s r := by
  unfold serialVisit visitL
  rw [if_pos hr]
  simp only [calcVar_eq h]
  cases e : (if 0 < cfg.delta then calcVarL cfg s.R r else some s.R) with
  | none => rfl
  | some R' =>
    have hR : NoMerged R' := by
      intro x
      by_cases hd : 0 < cfg.delta
      · rw [if_pos hd] at e; rw [calcVarL_flag e]; exact h x
      · rw [if_neg hd] at e; cases e; exact h x
    simp only [hR.realParent, Option.map_some, setParent_same, ite_self]

/-- The first loops agree. -/
theorem visits_eq (fuel : Nat) : ∀ (l : List ι) (s : RSt ι), l.Nodup → (∀ r ∈ l, (s.R r).flag = .unknown) →
    (∀ r, (s.R r).flag = .unknown ∨ (s.R r).flag = .invalid) →
    l.foldlM (serialVisit cfg fuel) s = l.foldlM (visitL cfg) s ∧
      ∀ s', l.foldlM (visitL cfg) s = some s' → ∀ r, (s'.R r).flag = .unknown ∨ (s'.R r).flag = .invalid
  | [], s, _, _, hf => ⟨rfl, fun s' e => by cases e; exact hf⟩
  | x :: l, s, hnd, hun, hf => by
    have hm : NoMerged s.R := fun r => by rcases hf r with e | e <;> simp [e]
    have e1 := serialVisit_eq (cfg := cfg) hm fuel (hun x (by simp))
    simp only [List.foldlM_cons, e1]
    cases hv : visitL cfg s x with
    | none => exact ⟨rfl, fun s' e => by simp at e⟩
    | some s1 =>
      obtain ⟨h1, h2⟩ := visitL_flag hv
      rw [List.nodup_cons] at hnd
      refine visits_eq fuel l s1 hnd.2 (fun r hr => ?_) fun r => ?_
      · rw [h1 r (fun e => hnd.1 (e ▸ hr))]; exact hun r (by simp [hr])
      · by_cases hr : r = x
        · subst hr
          rcases h2 with e | e
          · rw [e]; exact hf r
          · exact .inr e
        · rw [h1 r hr]; exact hf r

theorem nms_eq (h : NoMerged s.R) (r : ι) : serialNms cfg s r = nmsL cfg s r := by
  unfold serialNms nmsL
  simp only [h r, if_false]
  cases (s.R r).parent with
  | none => rfl
  | some p =>
    simp only
    by_cases hb : (s.R r).flag = .invalid ∧ (s.R p).flag = .invalid
    · simp [hb]
    · rw [if_neg hb]

theorem nmsL_flag (hf : ∀ r, (s.R r).flag = .unknown ∨ (s.R r).flag = .invalid) (r : ι) :
    ∀ x, ((nmsL cfg s r).R x).flag = .unknown ∨ ((nmsL cfg s r).R x).flag = .invalid := by
  have key : ∀ y x, (setFlag s.R y .invalid x).flag = .unknown ∨ (setFlag s.R y .invalid x).flag = .invalid := by
    intro y x
    by_cases hx : x = y
    · subst hx; exact .inr (setFlag_self _ _ _)
    · rw [setFlag_flag_ne _ _ hx]; exact hf x
  intro x
  unfold nmsL
  simp only
  split
  · exact hf x
  · split
    · exact hf x
    · split
      · split
        · split
          · exact key _ x
          · exact hf x
        · split
          · split
            · exact key _ x
            · exact hf x
          · exact hf x
      · exact hf x

theorem nmsFold_eq : ∀ (l : List ι) (s : RSt ι), (∀ r, (s.R r).flag = .unknown ∨ (s.R r).flag = .invalid) →
    l.foldl (serialNms cfg) s = l.foldl (nmsL cfg) s ∧
      ∀ x, ((l.foldl (nmsL cfg) s).R x).flag = .unknown ∨ ((l.foldl (nmsL cfg) s).R x).flag = .invalid
  | [], _, hf => ⟨rfl, hf⟩
  | r :: l, s, hf => by
    have hm : NoMerged s.R := fun r => by rcases hf r with e | e <;> simp [e]
    simp only [List.foldl_cons, nms_eq hm]
    exact nmsFold_eq l _ (nmsL_flag hf r)

/-- The selections agree. -/
theorem select_eq (fuel : Nat) {order : List ι} (hnd : order.Nodup) (h : ∀ r, (R r).flag = .unknown) :
    selectSerial cfg fuel order R = selectL cfg order R ∧
      ∀ s, selectL cfg order R = some s → ∀ r, (s.R r).flag = .unknown ∨ (s.R r).flag = .invalid := by
  obtain ⟨h1, h2⟩ := visits_eq (cfg := cfg) fuel order ⟨R, fun _ => 0, 0⟩ hnd (fun r _ => h r) (fun r => .inl (h r))
  unfold selectSerial selectL
  rw [h1]
  cases hv : order.foldlM (visitL cfg) ⟨R, fun _ => 0, 0⟩ with
  | none => exact ⟨rfl, fun s e => by simp at e⟩
  | some s1 =>
    obtain ⟨h3, h4⟩ := nmsFold_eq (cfg := cfg) order s1 (h2 s1 hv)
    simp only [h3]
    refine ⟨trivial, fun s e => ?_⟩
    cases e
    split
    · exact h4
    · exact h2 s1 hv

theorem order_eq {order : List ι} {msize : Nat} (hf : ∀ r, (s.R r).flag = .unknown ∨ (s.R r).flag = .invalid) :
    orderL s order msize = grayOrder s order msize := by
  have : placeL s.R msize = place s.R msize := by
    funext o r
    unfold placeL place
    rcases hf r with e | e <;> simp [e]
  unfold orderL grayOrder
  rw [this]
  cases List.foldlM (place s.R msize) _ order <;> rfl

/-- **Recognition of the linear detector** on a forest without merged regions. -/
theorem recognizeL_spec {T : Recog.Tree ι} (hT : T.Ok) (h64 : Rounding cfg.r64) (hsz : ∀ r, T.live r → T.sz r < 2 ^ 31)
    {order : List ι} (hnd : order.Nodup) (hreg : ∀ r ∈ order, T.isReg r) (hall : ∀ r, T.live r → r ∈ order)
    (hR : Shows T R) (hfresh : ∀ r, (R r).flag = .unknown ∧ (R r).counted = false) {msize : Nat}
    (hm : order.length ≤ msize) :
    ∃ out, recognizeL cfg order msize R = some out ∧ Outcome T cfg (decide (0 < cfg.delta)) order out := by
  obtain ⟨s, e1, h1⟩ := selectSerial_spec (cfg := cfg) hT (le_refl T.m) hnd hreg hall hR (fun r _ => hfresh r)
  obtain ⟨e2, h2⟩ := select_eq (cfg := cfg) T.m hnd (fun r => (hfresh r).1)
  rw [e2] at e1
  have ht : s.total ≤ (msize : Int) := by
    rw [h1.total]
    have := List.countP_le_length (p := cand s.R) (l := order)
    omega
  obtain ⟨arr, e3, h3, _⟩ := order_spec hT hnd hreg hall h1 ht
  rw [← order_eq (h2 s e1)] at e3
  unfold recognizeL
  rw [e1]; simp only; rw [e3]; simp only
  by_cases hd : 0 < cfg.dup
  · rw [if_pos hd]; exact dedup_outcome hT h64 h3 h1
  · rw [if_neg hd]; exact ⟨_, rfl, keepAll_outcome hT h64 (not_lt.1 hd) hsz h3 h1⟩

end Verif.Linear
