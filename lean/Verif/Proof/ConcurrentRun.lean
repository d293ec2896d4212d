import Mathlib.Algebra.BigOperators.Group.Finset.Basic
import Mathlib.Algebra.Order.BigOperators.Group.Finset
import Verif.Proof.ConcurrentStep

/-!
# Proof: every schedule ends, and all end alike
-/

namespace Verif.Recog

open Function (update)
open Relation (ReflTransGen)
open Verif.Connect (Forest Str Res RealPar)

variable {ι : Type} [DecidableEq ι] {T : Tree ι} {cfg : Cfg} {pidx : ι → Nat} {n : Nat} {regs : Nat → List ι}
  {R0 R : RForest ι} {two : Bool} {cap : Nat → Nat}

/-! ### The invariant of all threads -/

structure Inv (T : Tree ι) (cfg : Cfg) (pidx : ι → Nat) (two : Bool) (cap : Nat → Nat) (regs : Nat → List ι)
    (n : Nat) (R0 : RForest ι) (C : Conf ι) : Prop where
  shows_ : Shows T C.R
  rest : ∀ x, ¬ T.live x → C.R x = R0 x
  good : ∀ k < n, Good T cfg pidx two cap regs R0 k C.R (C.th k)

theorem Inv.start (S : Setup T pidx n regs R0) : Inv T cfg pidx two cap regs n R0 (Conf.start regs R0) :=
  ⟨S.shows_, fun _ _ => rfl, fun _ _ => ⟨⟨rfl, rfl, rfl⟩, [], rfl, ⟨by simp, fun _ _ _ => .inl rfl⟩⟩⟩

/-- The second loops, each alone, do not crash. -/
def SoloOk (T : Tree ι) (cfg : Cfg) (pidx : ι → Nat) (two : Bool) (cap : Nat → Nat) (regs : Nat → List ι) (n : Nat)
    (R0 : RForest ι) : Prop :=
  ∀ k < n, two = true → ∃ a, solo T cfg pidx cap R0 k (regs k) = some a

theorem Inv.frame (S : Setup T pidx n regs R0) {C : Conf ι} (h : Inv T cfg pidx two cap regs n R0 C) {k : Nat}
    {R' : RForest ι} {t' : Thread ι} (hs : Shows T R') (hg : Good T cfg pidx two cap regs R0 k R' t')
    (hf : Frame T pidx k C.R R') : Inv T cfg pidx two cap regs n R0 ⟨R', update C.th k t'⟩ := by
  refine ⟨hs, fun x hx => ?_, fun i hi => ?_⟩
  · exact (hf x fun h => hx h.1).trans (h.rest x hx)
  · dsimp only
    by_cases e : i = k
    · subst e; rw [Function.update_self]; exact hg
    · rw [Function.update_of_ne e]
      refine (h.good i hi).other (Ext.of_live S.ok h.shows_ hs fun x hx => hf x fun h => hx h.1) fun x hx hl => ?_
      refine hf x fun hk => e ?_
      rw [← ((S.mem i hi x).1 hx).2, hk.2]

theorem Inv.step (S : Setup T pidx n regs R0) (hsolo : SoloOk T cfg pidx two cap regs n R0) {C C' : Conf ι}
    (h : Inv T cfg pidx two cap regs n R0 C) (hs : Conf.Step cfg pidx two cap regs n C C') :
    Inv T cfg pidx two cap regs n R0 C' := by
  obtain ⟨k, hk, R', t', e, rfl⟩ := hs
  obtain ⟨h1, h2, h3⟩ := (step_good S hk (hsolo k hk) h.shows_ (h.good k hk)).2 R' t' e
  exact h.frame S h1 h2 h3

theorem Inv.steps (S : Setup T pidx n regs R0) (hsolo : SoloOk T cfg pidx two cap regs n R0) {j : Nat}
    {C C' : Conf ι} (h : Inv T cfg pidx two cap regs n R0 C) (hs : Conf.Steps cfg pidx two cap regs n j C C') :
    Inv T cfg pidx two cap regs n R0 C' := by
  induction hs with
  | refl => exact h
  | tail _ h' ih => exact (ih h).step S hsolo h'

/-! ### No schedule goes on for ever -/

/-- Steps left for one region, from the moment its parent is looked for. -/
def perRegion (T : Tree ι) : Nat := (2 * T.m + 4) * 256 + 2 * T.m + 7

/-- Steps left in the second loop, before it has begun. -/
def perSecond (two : Bool) (l : List ι) : Nat := if two then l.length + 1 else 0

/-- The thread has at most `N` steps left. -/
def Left (T : Tree ι) (two : Bool) (regs : Nat → List ι) (k : Nat) (R : RForest ι) (t : Thread ι) (N : Nat) : Prop :=
  let B := t.todo.length * perRegion T + perSecond two (regs k)
  let A (s : ι) := (2 * T.m + 4) * (256 - T.gr s)
  match t.pc with
  | .next => B ≤ N
  | .load _ s x => (x = s ∧ B + A s + 2 * T.m + 6 ≤ N) ∨
      ∃ j z, Res (toForest R) (j + 1) x z ∧ B + A s + 2 * j + 6 ≤ N
  | .look _ s none => B + A s + 5 ≤ N
  | .look _ s (some y) => ∃ j z, Res (toForest R) j y z ∧ B + A s + 2 * j + 5 ≤ N
  | .store _ s _ => B + A s + 4 ≤ N
  | .cond _ s _ => B + A s + 3 ≤ N
  | .value _ _ _ => B + 2 ≤ N
  | .judge _ => B + 1 ≤ N
  | .second => t.todo.length ≤ N

omit [DecidableEq ι] in
theorem Left.ext {k N : Nat} {R' : RForest ι} {t : Thread ι} (h : Left T two regs k R t N) (he : Ext R R') :
    Left T two regs k R' t N := by
  obtain ⟨todo, pc, lev, total, deferred⟩ := t
  unfold Left at h ⊢
  cases pc with
  | load r s x =>
    rcases h with h | ⟨j, z, h1, h2⟩
    · exact .inl h
    · exact .inr ⟨j, z, he.res h1, h2⟩
  | look r s q =>
    cases q with
    | none => exact h
    | some y => obtain ⟨j, z, h1, h2⟩ := h; exact ⟨j, z, he.res h1, h2⟩
  | _ => exact h

theorem Left.step (S : Setup T pidx n regs R0) {k : Nat} (hR : Shows T R) {t : Thread ι}
    (hg : Good T cfg pidx two cap regs R0 k R t) {N : Nat} (h : Left T two regs k R t N) {R' : RForest ι}
    {t' : Thread ι} (he : Ext R R') (hs : stepThread cfg pidx two cap regs k R t = .next (R', t')) :
    ∃ N', N' < N ∧ Left T two regs k R' t' N' := by
  have hT := S.ok
  suffices ∃ N', N' < N ∧ Left T two regs k R t' N' by
    obtain ⟨N', h1, h2⟩ := this; exact ⟨N', h1, h2.ext he⟩
  obtain ⟨todo, pc, lev, total, deferred⟩ := t
  unfold stepThread at hs
  unfold Left at h
  unfold Good at hg
  cases pc with
  | next =>
    cases todo with
    | nil =>
      dsimp only at hs h
      cases two with
      | false => simp at hs
      | true =>
        simp only [if_true, Out.next.injEq, Prod.mk.injEq] at hs
        obtain ⟨_, rfl⟩ := hs
        simp only [perSecond, if_true, List.length_nil, Nat.zero_mul, Nat.zero_add] at h
        exact ⟨(regs k).length, by omega, Nat.le_refl _⟩
    | cons r rest =>
      dsimp only at hs h
      rw [List.length_cons, Nat.add_mul, Nat.one_mul] at h
      split at hs
      · simp only [Out.next.injEq, Prod.mk.injEq] at hs
        obtain ⟨_, rfl⟩ := hs
        refine ⟨_, ?_, .inl ⟨rfl, Nat.le_refl _⟩⟩
        dsimp only
        have : (2 * T.m + 4) * (256 - T.gr r) ≤ (2 * T.m + 4) * 256 := Nat.mul_le_mul_left _ (by omega)
        have e : perRegion T = (2 * T.m + 4) * 256 + 2 * T.m + 7 := rfl
        omega
      · simp only [Out.next.injEq, Prod.mk.injEq] at hs
        obtain ⟨_, rfl⟩ := hs
        refine ⟨_, ?_, Nat.le_refl _⟩
        dsimp only
        have e : perRegion T = (2 * T.m + 4) * 256 + 2 * T.m + 7 := rfl
        omega
  | load r s x =>
    obtain ⟨_, d, _, _, ha, _, h2⟩ := hg
    simp only [Out.next.injEq, Prod.mk.injEq] at hs
    obtain ⟨_, rfl⟩ := hs
    unfold Left
    dsimp only at h ⊢
    rcases h with ⟨rfl, h⟩ | ⟨j, z, h1, h⟩
    · cases hp : (R x).parent with
      | none => exact ⟨_, by first | omega | (dsimp only; omega), Nat.le_refl _⟩
      | some y =>
        have hl := ha.live_s hT
        obtain ⟨j, hj, z, hz⟩ := hR.str.res y (hR.str.par_reg x (hT.reg x hl) y hp)
        exact ⟨_, by first | omega | (dsimp only; omega), j, z, hz, Nat.le_refl _⟩
    · obtain ⟨_, y, h3, h4⟩ := h1
      have h3' : (R x).parent = some y := h3
      rw [h3']
      exact ⟨_, by first | omega | (dsimp only; omega), j, z, h4, Nat.le_refl _⟩
  | look r s q =>
    cases q with
    | none =>
      simp only [Out.next.injEq, Prod.mk.injEq] at hs
      obtain ⟨_, rfl⟩ := hs
      dsimp only at h
      exact ⟨_, by first | omega | (dsimp only; omega), Nat.le_refl _⟩
    | some y =>
      obtain ⟨j, z, h1, h⟩ := h
      dsimp only at hs h
      split at hs
      · rename_i hm
        simp only [Out.next.injEq, Prod.mk.injEq] at hs
        obtain ⟨_, rfl⟩ := hs
        cases j with
        | zero => exfalso; have := h1.1; simp [toForest, hm] at this
        | succ j => exact ⟨_, by first | omega | (dsimp only; omega), .inr ⟨j, z, h1, Nat.le_refl _⟩⟩
      · simp only [Out.next.injEq, Prod.mk.injEq] at hs
        obtain ⟨_, rfl⟩ := hs
        exact ⟨_, by first | omega | (dsimp only; omega), Nat.le_refl _⟩
  | store r s q =>
    simp only [Out.next.injEq, Prod.mk.injEq] at hs
    obtain ⟨_, rfl⟩ := hs
    dsimp only at h
    exact ⟨_, by first | omega | (dsimp only; omega), Nat.le_refl _⟩
  | cond r s q =>
    obtain ⟨_, d, _, _, ha, _, h2⟩ := hg
    have hl := ha.live_s hT
    dsimp only at h hs
    cases q with
    | none =>
      simp only [Out.next.injEq, Prod.mk.injEq] at hs
      obtain ⟨_, rfl⟩ := hs
      exact ⟨_, by first | omega | (dsimp only; omega), Nat.le_refl _⟩
    | some p =>
      dsimp only at hs
      split at hs
      · simp only [Out.next.injEq, Prod.mk.injEq] at hs
        obtain ⟨_, rfl⟩ := hs
        refine ⟨_, ?_, .inl ⟨rfl, Nat.le_refl _⟩⟩
        dsimp only
        have h3 := hT.up_gray s hl p h2.symm
        have h4 := hT.gr_lt p (hT.up_live s hl p h2.symm)
        have h5 : (2 * T.m + 4) * (256 - T.gr p) + (2 * T.m + 4) ≤ (2 * T.m + 4) * (256 - T.gr s) := by
          rw [← Nat.mul_succ]; exact Nat.mul_le_mul_left _ (by omega)
        omega
      · simp only [Out.next.injEq, Prod.mk.injEq] at hs
        obtain ⟨_, rfl⟩ := hs
        exact ⟨_, by first | omega | (dsimp only; omega), Nat.le_refl _⟩
  | value r s q =>
    simp only [Out.next.injEq, Prod.mk.injEq] at hs
    obtain ⟨_, rfl⟩ := hs
    dsimp only at h
    exact ⟨_, by first | omega | (dsimp only; omega), Nat.le_refl _⟩
  | judge r =>
    simp only [Out.next.injEq, Prod.mk.injEq] at hs
    obtain ⟨_, rfl⟩ := hs
    dsimp only at h
    exact ⟨_, by first | omega | (dsimp only; omega), Nat.le_refl _⟩
  | second =>
    cases todo with
    | nil => simp at hs
    | cons r rest =>
      dsimp only at hs h
      cases hv : accelVisit cfg pidx k (cap k) ⟨⟨R, lev, total⟩, deferred⟩ r with
      | none => rw [hv] at hs; simp at hs
      | some a =>
        rw [hv] at hs
        simp only [Out.next.injEq, Prod.mk.injEq] at hs
        obtain ⟨_, rfl⟩ := hs
        rw [List.length_cons] at h
        exact ⟨rest.length, by omega, Nat.le_refl _⟩

/-- Bound on the number of steps of all threads together. -/
def stepBound (T : Tree ι) (two : Bool) (regs : Nat → List ι) (n : Nat) : Nat :=
  ∑ k ∈ Finset.range n, ((regs k).length * perRegion T + perSecond two (regs k))

theorem steps_bound (S : Setup T pidx n regs R0) (hsolo : SoloOk T cfg pidx two cap regs n R0) {j : Nat} {C : Conf ι}
    (hs : Conf.Steps cfg pidx two cap regs n j (Conf.start regs R0) C) :
    ∃ N : Nat → Nat, (∀ k < n, Left T two regs k C.R (C.th k) (N k)) ∧
      j + ∑ k ∈ Finset.range n, N k ≤ stepBound T two regs n := by
  generalize hC : Conf.start regs R0 = C0 at hs
  induction hs with
  | refl =>
    subst hC
    exact ⟨_, fun k _ => Nat.le_refl _, by rw [Nat.zero_add]; exact Nat.le_refl _⟩
  | @tail j C0 C' C'' h0 h' ih =>
    subst hC
    obtain ⟨N, h1, h2⟩ := ih rfl
    have hi := (Inv.start (two := two) (cap := cap) (cfg := cfg) S).steps S hsolo h0
    obtain ⟨k, hk, R', t', e, rfl⟩ := h'
    obtain ⟨h3, _, h4⟩ := (step_good S hk (hsolo k hk) hi.shows_ (hi.good k hk)).2 R' t' e
    have he := Ext.of_live S.ok hi.shows_ h3 fun x hx => h4 x fun h => hx h.1
    obtain ⟨N', h5, h6⟩ := (h1 k hk).step S hi.shows_ (hi.good k hk) he e
    refine ⟨update N k N', fun i hi' => ?_, ?_⟩
    · dsimp only
      by_cases ei : i = k
      · subst ei; simp only [Function.update_self]; exact h6
      · simp only [Function.update_of_ne ei]; exact (h1 i hi').ext he
    · have : ∑ i ∈ Finset.range n, update N k N' i < ∑ i ∈ Finset.range n, N i := by
        refine Finset.sum_lt_sum (fun i _ => ?_) ⟨k, Finset.mem_range.2 hk, ?_⟩
        · by_cases ei : i = k
          · subst ei; rw [Function.update_self]; omega
          · rw [Function.update_of_ne ei]
        · rw [Function.update_self]; exact h5
      omega

/-- An unfinished configuration has a next step, and no thread crashes. -/
theorem Inv.progress (S : Setup T pidx n regs R0) (hsolo : SoloOk T cfg pidx two cap regs n R0) {C : Conf ι}
    (h : Inv T cfg pidx two cap regs n R0 C) :
    Conf.Finished cfg pidx two cap regs n C ∨ ∃ C', Conf.Step cfg pidx two cap regs n C C' := by
  by_cases hf : Conf.Finished cfg pidx two cap regs n C
  · exact .inl hf
  · right
    unfold Conf.Finished at hf
    push Not at hf
    obtain ⟨k, hk, hne⟩ := hf
    have hc := (step_good S hk (hsolo k hk) h.shows_ (h.good k hk)).1
    cases e : stepThread cfg pidx two cap regs k C.R (C.th k) with
    | stop => exact absurd e hne
    | crash => exact absurd e hc
    | next a => exact ⟨_, k, hk, a.1, a.2, e, rfl⟩

/-- From any point reached, all threads can be run to their end. -/
theorem run_to_end (S : Setup T pidx n regs R0) (hsolo : SoloOk T cfg pidx two cap regs n R0) :
    ∀ (b j : Nat) (C : Conf ι), stepBound T two regs n ≤ j + b →
      Conf.Steps cfg pidx two cap regs n j (Conf.start regs R0) C →
      ∃ j' C', Conf.Steps cfg pidx two cap regs n j' (Conf.start regs R0) C' ∧ Conf.Finished cfg pidx two cap regs n C'
  | b, j, C, hb, hs => by
    rcases ((Inv.start (two := two) (cap := cap) (cfg := cfg) S).steps S hsolo hs).progress S hsolo with hf | ⟨C', hs'⟩
    · exact ⟨j, C, hs, hf⟩
    · have h' := hs.tail hs'
      obtain ⟨N, _, hN⟩ := steps_bound S hsolo h'
      cases b with
      | zero => omega
      | succ b => exact run_to_end S hsolo b (j + 1) C' (by omega) h'

/-! ### The end -/

theorem stop_cases {k : Nat} {t : Thread ι} (h : stepThread cfg pidx two cap regs k R t = .stop) :
    (two = false ∧ t.pc = .next ∧ t.todo = []) ∨ (t.pc = .second ∧ t.todo = []) := by
  obtain ⟨todo, pc, lev, total, deferred⟩ := t
  unfold stepThread at h
  cases pc with
  | next =>
    cases todo with
    | nil =>
      cases two with
      | false => exact .inl ⟨rfl, rfl, rfl⟩
      | true => simp at h
    | cons r rest => dsimp only at h; split at h <;> simp at h
  | second =>
    cases todo with
    | nil => exact .inr ⟨rfl, rfl⟩
    | cons r rest => dsimp only at h; split at h <;> simp at h
  | look r s q =>
    cases q with
    | none => simp at h
    | some y => dsimp only at h; split at h <;> simp at h
  | cond r s q =>
    cases q with
    | none => simp at h
    | some y => dsimp only at h; split at h <;> simp at h
  | _ => simp at h

/-- With one loop: the memory at the end. -/
theorem Inv.end_one (S : Setup T pidx n regs R0) {C : Conf ι} (h : Inv T cfg pidx false cap regs n R0 C)
    (hf : Conf.Finished cfg pidx false cap regs n C) : C.R = settleAll T cfg R0 := by
  funext x
  by_cases hl : T.live x
  · rw [settleAll_live hl]
    have hx := S.ok.reg x hl
    have hk := S.lt x hx
    have hg := h.good _ hk
    rcases stop_cases (hf _ hk) with ⟨_, e1, e2⟩ | ⟨e1, _⟩
    · unfold Good at hg; rw [e1] at hg
      obtain ⟨_, d, e, hb⟩ := hg
      rw [e2, List.append_nil] at e
      exact hb.settled x (by rw [← e]; exact (S.mem _ hk x).2 ⟨hx, rfl⟩) hl
    · unfold Good at hg; rw [e1] at hg
      exact absurd hg.1 (by simp)
  · rw [settleAll_not hl]; exact h.rest x hl

/-- With two loops: memory and counters at the end. -/
theorem Inv.end_two (S : Setup T pidx n regs R0) {C : Conf ι} (h : Inv T cfg pidx true cap regs n R0 C)
    (hf : Conf.Finished cfg pidx true cap regs n C) : ∀ k < n, ∃ a, solo T cfg pidx cap R0 k (regs k) = some a ∧
      a.st.lev = (C.th k).lev ∧ a.st.total = (C.th k).total ∧ a.deferred = (C.th k).deferred ∧
      ∀ x ∈ regs k, T.live x → C.R x = a.st.R x := by
  intro k hk
  have hg := h.good k hk
  rcases stop_cases (hf k hk) with ⟨e, _, _⟩ | ⟨e1, e2⟩
  · exact absurd e (by simp)
  · unfold Good at hg; rw [e1] at hg
    obtain ⟨_, d, a, e, h1, h2, h3, h4, _, h5⟩ := hg
    rw [e2, List.append_nil] at e
    rw [e]
    exact ⟨a, h1, h2, h3, h4, fun x hx hl => (h5 x (by rw [e]; exact hx) hl).1⟩

end Verif.Recog
