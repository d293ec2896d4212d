import Verif.Proof.OriginalStep
import Verif.Proof.RecogSelect

/-!
# Original detector: the whole pass
-/

namespace Verif.Original

open Function (update)
open Relation (ReflTransGen)
open Verif.Spec (LConn)

variable {E : Env} {s : St} {Ls : Nat → List Nat} {g cur : Nat} {pend : List Nat} {all : List Nat}

theorem Inv.perm (h : Inv E s Ls g cur pend) {pend' : List Nat} (hp : pend'.Perm pend) : Inv E s Ls g cur pend' :=
  { h with
    pend_reg := fun c hc => h.pend_reg c (hp.mem_iff.1 hc)
    pend_nodup := hp.nodup_iff.2 h.pend_nodup
    done := fun c q hq hc => h.done c q hq fun h' => hc (hp.mem_iff.2 h') }

theorem Inv.setStack (h : Inv E s Ls g cur pend) (st : List Nat) : Inv E { s with stack := st } Ls g cur pend :=
  ⟨h.eD, h.earea, h.eimg, h.ecap, h.par_lt, h.gray_le, h.merged, h.short, h.short_self, h.head, h.last, h.head_reg, h.size, h.nodup,
    h.mem, h.reg, h.sub, h.chain, h.conn, h.closed, h.seen, h.level, h.pend_reg, h.pend_nodup, h.done⟩

/-- Number of pixels not yet seen. -/
def unseen (all : List Nat) (s : St) : Nat := all.countP fun c => decide ((s.pts c).reg = none)

theorem unseen_congr {s s' : St} (h : ∀ c, (s'.pts c).reg = (s.pts c).reg) : unseen all s' = unseen all s := by
  unfold unseen; simp only [h]

theorem unseen_drop {s s' : St} (hn : all.Nodup) {o : Nat} (ho : o ∈ all) (h : ∀ c, c ≠ o → (s'.pts c).reg = (s.pts c).reg)
    (h1 : (s.pts o).reg = none) (h2 : (s'.pts o).reg ≠ none) : unseen all s = unseen all s' + 1 := by
  unfold unseen
  exact Recog.countP_drop hn ho (fun x hx => by rw [h x hx]) (by simp [h1]) (by simp [h2])

theorem unseen_step {s s' : St} (hn : all.Nodup) {o : Nat} (ho : o ∈ all) (h : ∀ c, c ≠ o → (s'.pts c).reg = (s.pts c).reg)
    (h1 : (s.pts o).reg = none) (h2 : (s'.pts o).reg ≠ none) {n : Nat} : unseen all s' + (n + 1) = unseen all s + n := by
  have := unseen_drop hn ho h h1 h2; omega

/-- Nodup lists of pixels are at most as long as the area. -/
theorem length_le_area (hE : E.OK all) {l : List Nat} (hn : l.Nodup) (hl : ∀ c ∈ l, E.inn c) : l.length ≤ E.area := by
  rw [hE.area]
  exact (hn.subperm fun c hc => (hE.mem c).2 (hl c hc)).length_le

theorem look_spec (hE : E.OK all) {top : Nat} (h : Inv E s Ls g cur (top :: s.stack)) (hg : Growing s g cur) {k : Nat}
    (hk : k < E.D.dirs.length) :
    ∃ s' Ls', look cur top s k = some s' ∧ Inv E s' Ls' g cur (top :: s'.stack) ∧ Growing s' g cur ∧ s'.nreg = s.nreg ∧
      Ls cur ⊆ Ls' cur ∧ unseen all s' + s'.stack.length = unseen all s + s.stack.length ∧
      (∀ c q, (s.pts c).reg = some q → (s'.pts c).reg = some q) ∧
      ∀ o, E.adj top o → E.D.nbr top k = some o → E.val o ≤ E.val top → o ∈ Ls' cur := by
  have hc : cur < s.nreg := by have := hg.last; omega
  have htr := h.pend_reg top (by simp)
  have hti := h.reg top cur htr
  obtain ⟨o, ho⟩ := hE.nbr top hti.2.1 k hk
  have hvt : E.val top = g := by rw [hti.2.2, hg.gray]
  unfold look
  rw [h.eD, ho, h.eimg]
  dsimp only
  by_cases h1 : E.img o < 0
  · rw [if_pos h1]
    refine ⟨s, Ls, rfl, h, hg, rfl, fun _ h => h, rfl, fun _ _ h => h, ?_⟩
    intro o' h2 h3
    cases h3
    exact absurd h2.2.1 (not_le.2 h1)
  · rw [if_neg h1]
    have h1 : 0 ≤ E.img o := not_lt.1 h1
    have hao : E.adj top o := ⟨hti.2.1, h1, k, hk, ho⟩
    by_cases h2 : E.img o ≤ E.img top
    · rw [if_pos h2]
      have h2' : E.val o ≤ E.val top := Int.toNat_le_toNat h2
      cases hr : (s.pts o).reg with
      | none =>
        dsimp only
        have hno : o ∉ top :: s.stack := fun h3 => by have := h.pend_reg o h3; rw [hr] at this; cases this
        have hlen : s.stack.length < s.area := by
          have : (o :: top :: s.stack).length ≤ E.area := length_le_area hE (List.nodup_cons.2 ⟨hno, h.pend_nodup⟩) (by
            intro c hc'
            rcases List.mem_cons.1 hc' with rfl | hc'
            · exact h1
            · exact (h.reg c cur (h.pend_reg c hc')).2.1)
          rw [h.earea]; simp only [List.length_cons] at this; omega
        have hvo : E.val o = g := by
          by_contra h3
          obtain ⟨q, hq⟩ := h.seen o h1 (by omega)
          rw [hr] at hq; cases hq
        unfold Original.append
        rw [if_pos hlen]
        have hI := h.append hE hg (a := top) (by simp) hao hr hvo rfl rfl (st := o :: s.stack)
        refine ⟨_, _, rfl, hI.perm (List.Perm.swap _ _ _), ⟨hg.last, ?_, ?_⟩, rfl, ?_, ?_, ?_, ?_⟩
        · dsimp only [par]; rw [Function.update_self]; exact hg.root
        · dsimp only; rw [Function.update_self]; exact hg.gray
        · rw [Function.update_self]; exact List.subset_append_left _ _
        · refine unseen_step hE.nodup ((hE.mem o).2 h1) (o := o) ?_ hr ?_
          · intro c hc'
            dsimp only
            rw [Function.update_of_ne hc']
            by_cases h4 : c = (s.regs cur).tail
            · subst h4; rw [Function.update_self]
            · rw [Function.update_of_ne h4]
          · dsimp only; rw [Function.update_self]; simp
        · intro c q hq
          have hc' : c ≠ o := by rintro rfl; rw [hr] at hq; cases hq
          dsimp only
          rw [Function.update_of_ne hc']
          by_cases h4 : c = (s.regs cur).tail
          · subst h4; rw [Function.update_self]; exact hq
          · rw [Function.update_of_ne h4]; exact hq
        · intro o' _ h4 _
          cases h4
          rw [Function.update_self]; simp
      | some q =>
        dsimp only
        obtain ⟨s', Ls', k1, k2, k3, k4, k5, k6, k7, k8⟩ := meet_spec hE h hg (a := top) (by simp) hao hr
        refine ⟨s', Ls', k1, by rw [k6]; exact k2, k3, k5, k8, by rw [unseen_congr k7, k6], fun c q hq => by rw [k7]; exact hq, ?_⟩
        intro o' _ h4 _
        cases h4; exact k4
    · rw [if_neg h2]
      refine ⟨s, Ls, rfl, h, hg, rfl, fun _ h => h, rfl, fun _ _ h => h, ?_⟩
      intro o' h3 h4 h5
      cases h4
      have h6 : 0 ≤ E.img top := hti.2.1
      unfold Env.val at h5
      omega

/-- The loop over the neighbours. -/
theorem tour_spec (hE : E.OK all) {top : Nat} (h : Inv E s Ls g cur (top :: s.stack)) (hg : Growing s g cur) : ∀ n ≤ E.D.dirs.length,
    ∃ s' Ls', (List.range n).foldlM (look cur top) s = some s' ∧ Inv E s' Ls' g cur (top :: s'.stack) ∧ Growing s' g cur ∧
      s'.nreg = s.nreg ∧ Ls cur ⊆ Ls' cur ∧ unseen all s' + s'.stack.length = unseen all s + s.stack.length ∧
      (∀ c q, (s.pts c).reg = some q → (s'.pts c).reg = some q) ∧
      ∀ k < n, ∀ o, E.adj top o → E.D.nbr top k = some o → E.val o ≤ E.val top → o ∈ Ls' cur := by
  intro n
  induction n with
  | zero => intro _; exact ⟨s, Ls, rfl, h, hg, rfl, fun _ h => h, rfl, fun _ _ h => h, by omega⟩
  | succ n ih =>
    intro hn
    obtain ⟨s1, L1, k1, k2, k3, k4, k5, k6, k7, k8⟩ := ih (by omega)
    obtain ⟨s2, L2, j1, j2, j3, j4, j5, j6, j7, j8⟩ := look_spec hE k2 k3 (k := n) (by omega)
    refine ⟨s2, L2, ?_, j2, j3, j4.trans k4, fun x hx => j5 (k5 hx), j6.trans k6, fun c q hq => j7 c q (k7 c q hq), ?_⟩
    · rw [List.range_succ, List.foldlM_append, k1]; simpa using j1
    · intro k hk o h1 h2 h3
      rcases Nat.lt_succ_iff_lt_or_eq.1 hk with h4 | rfl
      · exact j5 (k8 k h4 o h1 h2 h3)
      · exact j8 o h1 h2 h3

/-- The loop over the stack. -/
theorem grow_spec (hE : E.OK all) : ∀ n {s : St} {Ls : Nat → List Nat}, Inv E s Ls g cur s.stack → Growing s g cur →
    unseen all s + s.stack.length ≤ n →
    ∃ s' Ls', grow cur n s = some s' ∧ Inv E s' Ls' g cur [] ∧ s'.stack = [] ∧ Growing s' g cur ∧
      (∀ c q, (s.pts c).reg = some q → (s'.pts c).reg = some q) := by
  intro n
  induction n with
  | zero =>
    intro s Ls h hg hn
    have : s.stack = [] := List.eq_nil_of_length_eq_zero (by omega)
    rw [grow, this]
    exact ⟨s, Ls, rfl, by rw [this] at h; exact h, this, hg, fun _ _ h => h⟩
  | succ n ih =>
    intro s Ls h hg hn
    cases hs : s.stack with
    | nil =>
      rw [grow, hs]
      exact ⟨s, Ls, rfl, by rw [hs] at h; exact h, hs, hg, fun _ _ h => h⟩
    | cons top rest =>
      rw [grow, hs]
      dsimp only
      rw [hs] at h
      have h0 : Inv E { s with stack := rest } Ls g cur (top :: ({ s with stack := rest } : St).stack) := h.setStack rest
      obtain ⟨s1, L1, k1, k2, k3, k4, k5, k6, k7, k8⟩ := tour_spec hE h0 ⟨hg.last, hg.root, hg.gray⟩ _ le_rfl
      rw [show s.D.dirs.length = E.D.dirs.length by rw [h.eD], k1]
      dsimp only
      have hc : cur < s1.nreg := by have := k3.last; omega
      have htr := k2.pend_reg top (by simp)
      have h1 : Inv E s1 L1 g cur s1.stack :=
        { k2 with
          pend_reg := fun c hc => k2.pend_reg c (List.mem_cons_of_mem _ hc)
          pend_nodup := (List.nodup_cons.1 k2.pend_nodup).2
          done := by
            intro c q hq hcp o hco hv r hr hp hcr
            by_cases h2 : c = top
            · subst h2
              have h3 : c ∈ L1 cur := (k2.mem cur hc c).2 ⟨cur, htr, .refl⟩
              rw [k2.root_same hr hc hp k3.root hcr h3]
              obtain ⟨k, hk, hk'⟩ := hco.2.2
              exact k8 k hk o hco hk' hv
            · exact k2.done c q hq (by simp [h2, hcp]) o hco hv r hr hp hcr }
      obtain ⟨s2, L2, j1, j2, j3, j4, j5⟩ := ih h1 k3 (by
        rw [hs, List.length_cons] at hn
        have e : unseen all { s with stack := rest } = unseen all s := unseen_congr fun _ => rfl
        rw [e] at k6
        dsimp only at k6
        omega)
      exact ⟨s2, L2, j1, j2, j3, j4, fun c q hq => j5 c q (k7 c q hq)⟩

/-! ### A new region -/

theorem Up.congr_below {p p' : Nat → Option Nat} {n : Nat} (h : ∀ a < n, p' a = p a) (hp : ∀ a < n, ∀ b, p a = some b → b < n) {a b : Nat}
    (ha : a < n) : Up p' a b ↔ Up p a b := by
  constructor
  · intro hu
    have : b < n ∧ Up p a b := by
      induction hu with
      | refl => exact ⟨ha, .refl⟩
      | tail _ h2 ih => rw [h _ ih.1] at h2; exact ⟨hp _ ih.1 _ h2, ih.2.tail h2⟩
    exact this.2
  · intro hu
    have : b < n ∧ Up p' a b := by
      induction hu with
      | refl => exact ⟨ha, .refl⟩
      | tail _ h2 ih => exact ⟨hp _ ih.1 _ h2, ih.2.tail (by rw [h _ ih.1]; exact h2)⟩
    exact this.2

theorem Inv.new (h : Inv E s Ls g cur []) {i : Nat} (hi : E.inn i) (hr : (s.pts i).reg = none) {g' : Nat} (hg' : E.val i = g')
    (hle : g ≤ g') (hseen : ∀ c, E.inn c → E.val c < g' → ∃ q, (s.pts c).reg = some q) {R : Reg} {st : List Nat}
    (e1 : R.head = i) (e2 : R.tail = i) (e3 : R.merged = false) (e4 : R.gray = g') (e5 : R.size = 1) (e6 : R.parent = none)
    (e7 : R.short = s.nreg) :
    Inv E { s with nreg := s.nreg + 1, pts := update s.pts i { s.pts i with reg := some s.nreg }
                   regs := update s.regs s.nreg R, stack := st } (update Ls s.nreg [i]) g' s.nreg [i] := by
  have hlt : ∀ r, r < s.nreg → r ≠ s.nreg := fun r h => by omega
  have hcase : ∀ r, r < s.nreg + 1 → r = s.nreg ∨ r < s.nreg := fun r h => by omega
  have er : ∀ r, r < s.nreg → update s.regs s.nreg R r = s.regs r := fun r h => Function.update_of_ne (hlt r h) _ _
  have eL : ∀ r, r < s.nreg → update Ls s.nreg [i] r = Ls r := fun r h => Function.update_of_ne (hlt r h) _ _
  have en : update s.regs s.nreg R s.nreg = R := Function.update_self _ _ _
  have eLn : update Ls s.nreg [i] s.nreg = [i] := Function.update_self _ _ _
  have hno : ∀ r < s.nreg, i ∉ Ls r := fun r h' hir => by
    obtain ⟨q, hq, -⟩ := (h.mem r h' i).1 hir; rw [hr] at hq; cases hq
  have hpar : ∀ r, r < s.nreg → (update s.regs s.nreg R r).parent = par s r := fun r h => by rw [er r h]
  have hup : ∀ {a b}, a < s.nreg → (Up (fun r => (update s.regs s.nreg R r).parent) a b ↔ Up (par s) a b) := fun ha =>
    Up.congr_below hpar (fun a ha b hb => (h.par_lt a ha b hb).2) ha
  have hupn : ∀ {b}, (Up (fun r => (update s.regs s.nreg R r).parent) s.nreg b ↔ b = s.nreg) :=
    Up.of_root (by rw [en]; exact e6)
  have hreg : ∀ c q, (update s.pts i { s.pts i with reg := some s.nreg } c).reg = some q →
      (c = i ∧ q = s.nreg) ∨ (c ≠ i ∧ (s.pts c).reg = some q) := by
    intro c q hq
    by_cases h1 : c = i
    · subst h1; rw [Function.update_self] at hq; cases hq; exact .inl ⟨rfl, rfl⟩
    · rw [Function.update_of_ne h1] at hq; exact .inr ⟨h1, hq⟩
  have hregi : (update s.pts i { s.pts i with reg := some s.nreg } i).reg = some s.nreg := by rw [Function.update_self]
  have hregc : ∀ c, c ≠ i → (update s.pts i { s.pts i with reg := some s.nreg } c).reg = (s.pts c).reg := fun c h => by
    rw [Function.update_of_ne h]
  have hnext : ∀ c, (update s.pts i { s.pts i with reg := some s.nreg } c).next = (s.pts c).next := fun c => by
    by_cases h1 : c = i
    · subst h1; rw [Function.update_self]
    · rw [Function.update_of_ne h1]
  constructor
  · exact h.eD
  · exact h.earea
  · exact h.eimg
  · exact h.ecap
  · intro r hr' p hp
    rcases hcase r hr' with rfl | h1
    · dsimp only [par] at hp; rw [en, e6] at hp; cases hp
    · dsimp only [par] at hp; rw [er r h1] at hp
      have := h.par_lt r h1 p hp
      dsimp only; omega
  · intro r hr' p hp
    rcases hcase r hr' with rfl | h1
    · dsimp only [par] at hp; rw [en, e6] at hp; cases hp
    · dsimp only [par] at hp; rw [er r h1] at hp
      dsimp only; rw [er r h1, er p (h.par_lt r h1 p hp).2]; exact h.gray_le r h1 p hp
  · intro r hr'
    dsimp only [par]
    rcases hcase r hr' with rfl | h1
    · rw [en, e3, e6]; simp
    · rw [er r h1, h.merged r h1]
      refine exists_congr fun p => and_congr_right fun hp => ?_
      rw [er p (h.par_lt r h1 p hp).2]
  · intro r hr'
    show Up (fun r => (update s.regs s.nreg R r).parent) r (update s.regs s.nreg R r).short
    rcases hcase r hr' with rfl | h1
    · rw [en, e7]; exact .refl
    · rw [hup h1, er r h1]; exact h.short r h1
  · intro r hr'
    dsimp only [par]
    rcases hcase r hr' with rfl | h1
    · rw [en, e7, e6]; simp
    · rw [er r h1]; exact h.short_self r h1
  · intro r hr'
    dsimp only
    rcases hcase r hr' with rfl | h1
    · rw [en, eLn, e1]; rfl
    · rw [er r h1, eL r h1]; exact h.head r h1
  · intro r hr'
    dsimp only
    rcases hcase r hr' with rfl | h1
    · rw [en, eLn, e2]; rfl
    · rw [er r h1, eL r h1]; exact h.last r h1
  · intro r hr'
    dsimp only
    rcases hcase r hr' with rfl | h1
    · rw [en, e1, hregi]
    · rw [er r h1]
      have h2 := h.head_reg r h1
      rw [hregc _ (by intro e; rw [e, hr] at h2; cases h2)]; exact h2
  · intro r hr'
    dsimp only
    rcases hcase r hr' with rfl | h1
    · rw [en, eLn, e5]; rfl
    · rw [er r h1, eL r h1]; exact h.size r h1
  · intro r hr'
    rcases hcase r hr' with rfl | h1
    · rw [eLn]; simp
    · rw [eL r h1]; exact h.nodup r h1
  · intro r hr' c
    show _ ↔ ∃ q, (update s.pts i { s.pts i with reg := some s.nreg } c).reg = some q ∧
      Up (fun r => (update s.regs s.nreg R r).parent) q r
    rcases hcase r hr' with rfl | h1
    · rw [eLn, List.mem_singleton]
      constructor
      · rintro rfl; exact ⟨s.nreg, hregi, .refl⟩
      · rintro ⟨q, h2, h3⟩
        rcases hreg c q h2 with ⟨h4, -⟩ | ⟨-, h4⟩
        · exact h4
        · have h5 := (h.reg c q h4).1
          rw [hup h5] at h3
          have := (h.up_lt h5 h3).1
          omega
    · rw [eL r h1]
      by_cases h2 : c = i
      · subst h2
        refine ⟨fun h3 => absurd h3 (hno r h1), ?_⟩
        rintro ⟨q, h3, h4⟩
        rw [hregi] at h3; cases h3
        rw [hupn] at h4; omega
      · rw [hregc c h2, h.mem r h1]
        exact exists_congr fun q => and_congr_right fun hq => (hup (h.reg c q hq).1).symm
  · intro c q hq
    dsimp only
    rcases hreg c q hq with ⟨rfl, rfl⟩ | ⟨-, h2⟩
    · rw [en, e4]; exact ⟨by omega, hi, hg'⟩
    · have h3 := h.reg c q h2
      rw [er q h3.1]; exact ⟨by omega, h3.2⟩
  · intro r hr' p hp
    rcases hcase r hr' with rfl | h1
    · dsimp only [par] at hp; rw [en, e6] at hp; cases hp
    · dsimp only [par] at hp; rw [er r h1] at hp
      rw [eL r h1, eL p (h.par_lt r h1 p hp).2]; exact h.sub r h1 p hp
  · intro r hr' hp
    rcases hcase r hr' with rfl | h1
    · rw [eLn]; exact List.isChain_singleton _
    · dsimp only [par] at hp; rw [er r h1] at hp
      rw [eL r h1]
      simp only [hnext]; exact h.chain r h1 hp
  · intro r hr'
    dsimp only
    rcases hcase r hr' with rfl | h1
    · rw [eLn]
      intro a ha b hb
      rw [List.mem_singleton.1 ha, List.mem_singleton.1 hb]; exact .refl
    · rw [er r h1, eL r h1]; exact h.conn r h1
  · intro r hr' p hp
    rcases hcase r hr' with rfl | h1
    · dsimp only [par] at hp; rw [en, e6] at hp; cases hp
    · dsimp only [par] at hp; rw [er r h1] at hp
      dsimp only; rw [er r h1, eL r h1]; exact h.closed r h1 p hp
  · intro c h1 h2
    dsimp only
    by_cases h3 : c = i
    · subst h3; exact ⟨_, hregi⟩
    · rw [hregc c h3]; exact hseen c h1 h2
  · intro r hr'
    dsimp only
    rcases hcase r hr' with rfl | h1
    · rw [en, e4]
    · rw [er r h1]; exact (h.level r h1).trans hle
  · intro c hc
    rw [List.mem_singleton.1 hc]; exact hregi
  · simp
  · intro c q hq hcp o hco hv r hr' hp
    rw [List.mem_singleton] at hcp
    rcases hcase r hr' with rfl | h1
    · rw [eLn]; intro h2; exact absurd (List.mem_singleton.1 h2) hcp
    · dsimp only [par] at hp; rw [er r h1] at hp
      rw [eL r h1]
      rcases hreg c q hq with ⟨h2, -⟩ | ⟨-, h2⟩
      · exact absurd h2 hcp
      · exact h.done c q h2 (by simp) o hco hv r h1 hp

/-- Regions are at most as many as pixels seen. -/
theorem Inv.nreg_le (hE : E.OK all) (h : Inv E s Ls g cur pend) : s.nreg + unseen all s ≤ E.area := by
  have h1 : ((List.range s.nreg).map fun r => (s.regs r).head).Nodup := by
    refine List.Nodup.map_on ?_ List.nodup_range
    intro a ha b hb e
    have h2 := h.head_reg a (List.mem_range.1 ha)
    have h3 := h.head_reg b (List.mem_range.1 hb)
    rw [e, h3] at h2; simpa using h2.symm
  have h2 := (h1.subperm (l₂ := all.filter fun c => !decide ((s.pts c).reg = none)) (by
    intro c hc
    obtain ⟨r, hr, rfl⟩ := List.mem_map.1 hc
    have h3 := h.head_reg r (List.mem_range.1 hr)
    rw [List.mem_filter]
    exact ⟨(hE.mem _).2 (h.reg _ _ h3).2.1, by simp [h3]⟩)).length_le
  rw [List.length_map, List.length_range, ← List.countP_eq_length_filter] at h2
  have h3 := List.length_eq_countP_add_countP (fun c => decide ((s.pts c).reg = none)) (l := all)
  rw [hE.area, h3]
  unfold unseen
  simp only [decide_eq_true_eq, decide_not] at h3 ⊢
  omega

theorem seed_spec (hE : E.OK all) (h : Inv E s Ls g cur []) (hs : s.stack = []) {i : Nat} (hi : E.inn i)
    (hle : g ≤ E.val i) (hseen : ∀ c, E.inn c → E.val c < E.val i → ∃ q, (s.pts c).reg = some q) :
    ∃ s' Ls' g' cur', seed s i = some s' ∧ Inv E s' Ls' g' cur' [] ∧ s'.stack = [] ∧ g' ≤ E.val i ∧
      (∃ q, (s'.pts i).reg = some q) ∧ ∀ c q, (s.pts c).reg = some q → (s'.pts c).reg = some q := by
  unfold seed
  cases hr : (s.pts i).reg with
  | some q => exact ⟨s, Ls, g, cur, rfl, h, hs, hle, ⟨q, hr⟩, fun _ _ h => h⟩
  | none =>
    dsimp only
    have hu : 1 ≤ unseen all s := by
      unfold unseen
      exact List.countP_pos_iff.2 ⟨i, (hE.mem i).2 hi, by simp [hr]⟩
    have hn := h.nreg_le hE
    have hcap := hE.cap
    rw [if_pos ⟨by rw [h.ecap]; omega, by rw [hs, h.earea]; simp; omega, by rw [h.eimg]; exact hi⟩]
    have hI := h.new hi hr rfl hle hseen (st := i :: s.stack) (R := ⟨i, i, false, .unknown, (s.img i).toNat, 1, none, s.nreg, -1⟩)
      rfl rfl rfl (by rw [h.eimg]; rfl) rfl rfl rfl
    obtain ⟨s1, hs1⟩ : ∃ s1 : St, s1 = { s with nreg := s.nreg + 1, pts := update s.pts i { s.pts i with reg := some s.nreg }, regs := update s.regs s.nreg ⟨i, i, false, .unknown, (s.img i).toNat, 1, none, s.nreg, -1⟩, stack := i :: s.stack } := ⟨_, rfl⟩
    rw [← hs1] at hI ⊢
    have e1 : s1.stack = [i] := by rw [hs1]; dsimp only; rw [hs]
    have e2 : s1.nreg = s.nreg + 1 := by rw [hs1]
    have e3 : (s1.pts i).reg = some s.nreg := by rw [hs1]; dsimp only; rw [Function.update_self]
    have e4 : ∀ c, c ≠ i → (s1.pts c).reg = (s.pts c).reg := fun c hc => by
      rw [hs1]; dsimp only; rw [Function.update_of_ne hc]
    have e5 : par s1 s.nreg = none := by rw [hs1]; dsimp only [par]; rw [Function.update_self]
    have e6 : (s1.regs s.nreg).gray = E.val i := by
      rw [hs1]; dsimp only; rw [Function.update_self]; dsimp only; rw [h.eimg]; rfl
    have e7 := unseen_drop (s := s) (s' := s1) hE.nodup ((hE.mem i).2 hi) e4 hr (by rw [e3]; simp)
    obtain ⟨s2, L2, j1, j2, j3, j4, j5⟩ := grow_spec hE s.area (s := s1) (by rw [e1]; exact hI) ⟨e2.symm, e5, e6⟩ (by
      rw [e1, h.earea]; simp; omega)
    refine ⟨s2, L2, _, _, j1, j2, j3, le_rfl, ⟨_, j5 _ _ e3⟩, fun c q hq => j5 c q ?_⟩
    rw [e4 c (by rintro rfl; rw [hr] at hq; cases hq)]; exact hq

/-- The whole pass over the pixels in order of their values. -/
theorem pass_spec (hE : E.OK all) : ∀ (l proc : List Nat) {s : St} {Ls : Nat → List Nat} {g cur : Nat},
    (∀ c, E.inn c ↔ c ∈ proc ++ l) → l.Pairwise (fun a b => E.val a ≤ E.val b) → Inv E s Ls g cur [] → s.stack = [] →
    (∀ c ∈ l, g ≤ E.val c) → (∀ c ∈ proc, ∃ q, (s.pts c).reg = some q) →
    ∃ s' Ls' g' cur', l.foldlM seed s = some s' ∧ Inv E s' Ls' g' cur' [] ∧ s'.stack = [] ∧ ∀ c, E.inn c → ∃ q, (s'.pts c).reg = some q := by
  intro l
  induction l with
  | nil =>
    intro proc s Ls g cur hm _ h hs _ hp
    exact ⟨s, Ls, g, cur, rfl, h, hs, fun c hc => hp c (by simpa using (hm c).1 hc)⟩
  | cons i l ih =>
    intro proc s Ls g cur hm hsort h hs hg hp
    rw [List.pairwise_cons] at hsort
    have hi : E.inn i := (hm i).2 (by simp)
    obtain ⟨s1, L1, g1, c1, k1, k2, k3, k4, k5, k6⟩ := seed_spec hE h hs hi (hg i (by simp)) (by
      intro c hc hv
      have h1 := (hm c).1 hc
      simp only [List.mem_append, List.mem_cons] at h1
      rcases h1 with h1 | rfl | h1
      · exact hp c h1
      · omega
      · have := hsort.1 c h1; omega)
    obtain ⟨s2, L2, g2, c2, j1, j2, j3, j4⟩ := ih (proc ++ [i]) (s := s1) (by simpa using hm) hsort.2 k2 k3
      (fun c hc => k4.trans (hsort.1 c hc)) (by
        intro c hc
        simp only [List.mem_append, List.mem_singleton] at hc
        rcases hc with hc | rfl
        · obtain ⟨q, hq⟩ := hp c hc; exact ⟨q, k6 c q hq⟩
        · exact k5)
    refine ⟨s2, L2, g2, c2, ?_, j2, j3, j4⟩
    rw [List.foldlM_cons, k1]; exact j1

theorem Inv.start (h1 : s.D = E.D) (h2 : s.area = E.area) (h3 : s.img = E.img) (h4 : s.cap = E.cap) (h5 : s.nreg = 0)
    (h6 : ∀ c, (s.pts c).reg = none) : Inv E s (fun _ => []) 0 0 [] := by
  constructor <;> first | assumption | (intro r hr; omega) | skip
  · intro c q hq; rw [h6] at hq; cases hq
  · intro c hc; simp at hc
  · simp

end Verif.Original
