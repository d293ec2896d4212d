import Verif.Proof.VlFeatClimb
import Verif.Spec.Conn

/-!
# The VLFeat detector: the forest of joined pixels
-/

namespace Verif.VlFeat

open Verif.Spec (LConn)
open Relation (ReflTransGen)
open scoped Classical

theorem rtg_mono {A B : Nat → Nat → Prop} (h : ∀ x y, A x y → B x y) {x y : Nat} (h' : ReflTransGen A x y) : ReflTransGen B x y := by
  induction h' with
  | refl => exact .refl
  | tail _ e ih => exact ih.tail (h _ _ e)

/-- Pixels with symmetric neighbours. -/
structure Graph (nel : Nat) (nb : Nat → List Nat) : Prop where
  lt : ∀ i < nel, ∀ j ∈ nb i, j < nel ∧ j ≠ i
  symm : ∀ i < nel, ∀ j ∈ nb i, i ∈ nb j

/-- Adjacent pixels. -/
def adj (nel : Nat) (nb : Nat → List Nat) (i j : Nat) : Prop := i < nel ∧ j < nel ∧ j ∈ nb i

/-- `x` is `p` or above `p`. -/
def Anc (s : FS) : Nat → Nat → Prop := ReflTransGen fun a b => s.parent a = some b

/-- The pixels in `P` are in the forest, and the edges in `A` have been used for joining. -/
structure Inv (nel : Nat) (nb : Nat → List Nat) (g : Nat → Nat) (P : Finset Nat) (A : Nat → Nat → Prop) (rt d : Nat → Nat) (s : FS) : Prop where
  sub : ∀ x ∈ P, x < nel
  void : ∀ x, x ∉ P → s.parent x = none
  par : ∀ x ∈ P, ∃ y ∈ P, s.parent x = some y ∧ rt y = rt x ∧ (y = x ↔ rt x = x) ∧ g x ≤ g y ∧ (y ≠ x → d x < d y)
  sc : SC (· ∈ P) s.sc rt d
  depth : ∀ x ∈ P, d x ≤ s.njoins
  joins : s.njoins + (P.filter fun x => rt x = x).card = P.card
  act : ∀ x y, A x y → adj nel nb x y ∧ x ∈ P ∧ y ∈ P ∧ A y x
  conn : ∀ x ∈ P, ∀ y ∈ P, (rt x = rt y ↔ ReflTransGen A x y)
  area : ∀ x ∈ P, rt x = x → s.area x = (P.filter fun p => rt p = x).card
  ext : ∀ x ∈ P, ∀ y, s.parent x = some y → g x < g y →
    s.area x = (P.filter fun p => LConn (adj nel nb) g (g x) x p).card ∧ ∀ p ∈ P, (Anc s p x ↔ LConn (adj nel nb) g (g x) x p)
  ner : s.ner = (P.filter fun x => ∃ y, s.parent x = some y ∧ g x < g y).card

variable {nel : Nat} {nb : Nat → List Nat} {g : Nat → Nat} {P : Finset Nat} {A : Nat → Nat → Prop} {rt d : Nat → Nat} {s s' : FS}

theorem Inv.gray_rt (h : Inv nel nb g P A rt d s) : ∀ k x, x ∈ P → s.njoins - d x ≤ k → g x ≤ g (rt x) ∧ Anc s x (rt x) := by
  intro k
  induction k with
  | zero =>
    intro x hx hk
    obtain ⟨y, hy, h1, h2, h3, h4, h5⟩ := h.par x hx
    by_cases e : y = x
    · rw [h3.1 e]; exact ⟨le_refl _, .refl⟩
    · have := h5 e
      have := h.depth y hy
      omega
  | succ k ih =>
    intro x hx hk
    obtain ⟨y, hy, h1, h2, h3, h4, h5⟩ := h.par x hx
    by_cases e : y = x
    · rw [h3.1 e]; exact ⟨le_refl _, .refl⟩
    · have h6 := h5 e
      have h7 := h.depth y hy
      obtain ⟨i1, i2⟩ := ih y hy (by omega)
      rw [h2] at i1 i2
      exact ⟨h4.trans i1, .head h1 i2⟩

theorem Inv.gray_le (h : Inv nel nb g P A rt d s) {x : Nat} (hx : x ∈ P) : g x ≤ g (rt x) := (h.gray_rt _ x hx (le_refl _)).1

theorem Inv.anc_rt (h : Inv nel nb g P A rt d s) {x : Nat} (hx : x ∈ P) : Anc s x (rt x) := (h.gray_rt _ x hx (le_refl _)).2

theorem Inv.anc_mem (h : Inv nel nb g P A rt d s) {p x : Nat} (hp : p ∈ P) (ha : Anc s p x) : x ∈ P ∧ rt x = rt p := by
  induction ha with
  | refl => exact ⟨hp, rfl⟩
  | tail _ e ih =>
    obtain ⟨y, hy, h1, h2, -⟩ := h.par _ ih.1
    rw [h1] at e
    injection e with e
    subst e
    exact ⟨hy, h2.trans ih.2⟩

theorem Inv.rt_mem (h : Inv nel nb g P A rt d s) {x : Nat} (hx : x ∈ P) : rt x ∈ P := h.sc.memRt h.depth hx

theorem Inv.rt_rt (h : Inv nel nb g P A rt d s) {x : Nat} (hx : x ∈ P) : rt (rt x) = rt x := h.sc.rtRt h.depth hx

theorem Inv.root_par (h : Inv nel nb g P A rt d s) {x : Nat} (hx : x ∈ P) (e : rt x = x) : s.parent x = some x := by
  obtain ⟨y, hy, h1, h2, h3, -⟩ := h.par x hx
  rw [h1, h3.2 e]

/-- From a root there is no way up. -/
theorem Inv.anc_root (h : Inv nel nb g P A rt d s) {x z : Nat} (hx : x ∈ P) (e : rt x = x) (ha : Anc s x z) : z = x := by
  induction ha with
  | refl => rfl
  | tail _ e' ih => rw [ih, h.root_par hx e] at e'; injection e' with e'; exact e'.symm

/-- What `join` changes. -/
structure Attach (s : FS) (c k : Nat) (up : Nat) (s' : FS) : Prop where
  parent : s'.parent = upd s.parent c (some k)
  sc : s'.sc = upd s.sc c k
  area : s'.area = upd s.area k (s.area k + s.area c)
  njoins : s'.njoins = s.njoins + 1
  ner : s'.ner = s.ner + up

/-- The tree with the root `c` is attached to the root `k`. -/
theorem Inv.attach (h : Inv nel nb g P A rt d s) {c k a b up : Nat} (hc : c ∈ P) (hk : k ∈ P) (rc : rt c = c) (rk : rt k = k) (hne : c ≠ k)
    (ha : a ∈ P) (hb : b ∈ P) (hab : rt a = c ∧ rt b = k ∨ rt a = k ∧ rt b = c) (hadj : adj nel nb a b) (hadj' : adj nel nb b a) (hg : g c ≤ g k)
    (hcl : g c < g k → ∀ p ∈ P, (rt p = c ↔ LConn (adj nel nb) g (g c) c p)) (hup : up = if g c < g k then 1 else 0)
    (hs : Attach s c k up s') :
    Inv nel nb g P (fun x y => A x y ∨ (x = a ∧ y = b) ∨ (x = b ∧ y = a)) (fun x => if rt x = c then k else rt x)
      (upd d k (max (d k) (d c + 1))) s' := by
  have hd : ∀ x ∈ P, x ≠ k → upd d k (max (d k) (d c + 1)) x = d x := fun x _ e => upd_ne _ _ e
  have hdk : upd d k (max (d k) (d c + 1)) k = max (d k) (d c + 1) := upd_same _ _ _
  have hroot : ∀ x ∈ P, ((if rt x = c then k else rt x) = x ↔ rt x = x ∧ x ≠ c) := by
    intro x hx
    by_cases e : rt x = c
    · rw [if_pos e]
      constructor
      · rintro rfl; exact absurd (rk.symm.trans e).symm hne
      · rintro ⟨e1, e2⟩; exact absurd (e1.symm.trans e) e2
    · rw [if_neg e]
      constructor
      · intro e'; exact ⟨e', fun e'' => e (by rw [e', e''])⟩
      · exact fun h => h.1
  have hkc : (if rt k = c then k else rt k) = k := by rw [rk, if_neg (Ne.symm hne)]
  have hcc : (if rt c = c then k else rt c) = k := if_pos rc
  have hpar : ∀ x, x ≠ c → s'.parent x = s.parent x := fun x e => by rw [hs.parent, upd_ne _ _ e]
  have hparc : s'.parent c = some k := by rw [hs.parent, upd_same]
  refine ⟨h.sub, ?_, ?_, ?_, ?_, ?_, ?_, ?_, ?_, ?_, ?_⟩
  · intro x hx
    rw [hpar x (fun e => hx (by rw [e]; exact hc))]
    exact h.void x hx
  · intro x hx
    by_cases e : x = c
    · subst e
      refine ⟨k, hk, hparc, by rw [hkc, hcc], ?_, hg, fun _ => ?_⟩
      · rw [hcc]
      · rw [hdk, hd x hc hne]; omega
    · obtain ⟨y, hy, h1, h2, h3, h4, h5⟩ := h.par x hx
      refine ⟨y, hy, by rw [hpar x e, h1], by rw [h2], ?_, h4, fun e' => ?_⟩
      · rw [hroot x hx, ← h3]
        exact ⟨fun h => ⟨h, e⟩, fun h => h.1⟩
      · have h6 := h5 e'
        have hxk : x ≠ k := fun e'' => e' (h3.2 (by rw [e'', rk]))
        rw [hd x hx hxk]
        by_cases e'' : y = k
        · rw [e''] at h6 ⊢; rw [hdk]; omega
        · rw [hd y hy e'']; exact h6
  · refine ⟨?_, ?_, ?_, ?_⟩
    · intro x hx
      rw [hs.sc]
      by_cases e : x = c
      · rw [e, upd_same]; exact hk
      · rw [upd_ne _ _ e]; exact h.sc.mem x hx
    · intro x hx e'
      rw [hs.sc] at e'
      by_cases e : x = c
      · rw [e, upd_same] at e'; exact absurd e'.symm hne
      · rw [upd_ne _ _ e] at e'
        exact (hroot x hx).2 ⟨h.sc.root x hx e', e⟩
    · intro x hx
      rw [hs.sc]
      by_cases e : x = c
      · rw [e, upd_same]
        show (if rt k = c then k else rt k) = if rt c = c then k else rt c
        rw [hkc, hcc]
      · rw [upd_ne _ _ e]
        show (if rt (s.sc x) = c then k else rt (s.sc x)) = _
        rw [h.sc.rt x hx]
    · intro x hx e'
      rw [hs.sc] at e' ⊢
      by_cases e : x = c
      · subst e
        rw [upd_same, hdk, hd x hx hne]; omega
      · rw [upd_ne _ _ e] at e' ⊢
        have h6 := h.sc.up x hx e'
        have hxk : x ≠ k := fun e'' => e' (by rw [e'']; exact h.sc.fix h.depth hk rk)
        rw [hd x hx hxk]
        by_cases e'' : s.sc x = k
        · rw [e''] at h6 ⊢; rw [hdk]; omega
        · rw [hd _ (h.sc.mem x hx) e'']; exact h6
  · intro x hx
    have h1 := h.depth x hx
    have h2 := h.depth c hc
    have h3 := h.depth k hk
    rw [hs.njoins]
    by_cases e : x = k
    · rw [e, hdk]; omega
    · rw [hd x hx e]; omega
  · have : (P.filter fun x => (if rt x = c then k else rt x) = x) = (P.filter fun x => rt x = x).erase c := by
      ext x
      rw [Finset.mem_filter, Finset.mem_erase, Finset.mem_filter]
      constructor
      · rintro ⟨h1, h2⟩
        have := (hroot x h1).1 h2
        exact ⟨this.2, h1, this.1⟩
      · rintro ⟨h1, h2, h3⟩
        exact ⟨h2, (hroot x h2).2 ⟨h3, h1⟩⟩
    have hcm : c ∈ P.filter fun x => rt x = x := Finset.mem_filter.2 ⟨hc, rc⟩
    rw [this, Finset.card_erase_of_mem hcm, hs.njoins]
    have h1 := h.joins
    have h2 : 0 < (P.filter fun x => rt x = x).card := Finset.card_pos.2 ⟨c, hcm⟩
    omega
  · rintro x y (h1 | ⟨rfl, rfl⟩ | ⟨rfl, rfl⟩)
    · obtain ⟨k1, k2, k3, k4⟩ := h.act x y h1
      exact ⟨k1, k2, k3, .inl k4⟩
    · exact ⟨hadj, ha, hb, .inr (.inr ⟨rfl, rfl⟩)⟩
    · exact ⟨hadj', hb, ha, .inr (.inl ⟨rfl, rfl⟩)⟩
  · -- connectivity
    have hsub : ∀ x y, ReflTransGen A x y → ReflTransGen (fun x y => A x y ∨ (x = a ∧ y = b) ∨ (x = b ∧ y = a)) x y :=
      fun x y h => rtg_mono (fun _ _ h => Or.inl h) h
    have hsym : ∀ x y, ReflTransGen A x y → ReflTransGen A y x := by
      intro x y h'
      induction h' with
      | refl => exact .refl
      | tail _ e ih => exact .head (h.act _ _ e).2.2.2 ih
    have hsame : ∀ x ∈ P, ∀ y ∈ P, rt x = rt y → ReflTransGen (fun x y => A x y ∨ (x = a ∧ y = b) ∨ (x = b ∧ y = a)) x y :=
      fun x hx y hy e => hsub _ _ ((h.conn x hx y hy).1 e)
    have hbr : ∀ x ∈ P, ∀ y ∈ P, rt x = c → rt y = k → ReflTransGen (fun x y => A x y ∨ (x = a ∧ y = b) ∨ (x = b ∧ y = a)) x y ∧
        ReflTransGen (fun x y => A x y ∨ (x = a ∧ y = b) ∨ (x = b ∧ y = a)) y x := by
      intro x hx y hy e1 e2
      rcases hab with ⟨e3, e4⟩ | ⟨e3, e4⟩
      · exact ⟨(hsame x hx a ha (e1.trans e3.symm)).trans (.head (.inr (.inl ⟨rfl, rfl⟩)) (hsame b hb y hy (e4.trans e2.symm))),
          (hsame y hy b hb (e2.trans e4.symm)).trans (.head (.inr (.inr ⟨rfl, rfl⟩)) (hsame a ha x hx (e3.trans e1.symm)))⟩
      · exact ⟨(hsame x hx b hb (e1.trans e4.symm)).trans (.head (.inr (.inr ⟨rfl, rfl⟩)) (hsame a ha y hy (e3.trans e2.symm))),
          (hsame y hy a ha (e2.trans e3.symm)).trans (.head (.inr (.inl ⟨rfl, rfl⟩)) (hsame b hb x hx (e4.trans e1.symm)))⟩
    intro x hx y hy
    constructor
    · intro e
      by_cases e1 : rt x = c
      · by_cases e2 : rt y = c
        · exact hsame x hx y hy (e1.trans e2.symm)
        · rw [if_pos e1, if_neg e2] at e
          exact (hbr x hx y hy e1 e.symm).1
      · by_cases e2 : rt y = c
        · rw [if_neg e1, if_pos e2] at e
          exact (hbr y hy x hx e2 e).2
        · rw [if_neg e1, if_neg e2] at e
          exact hsame x hx y hy e
    · intro h'
      clear hx hy
      induction h' with
      | refl => rfl
      | @tail u v _ e ih =>
        rw [ih]
        rcases e with e | ⟨rfl, rfl⟩ | ⟨rfl, rfl⟩
        · obtain ⟨_, k2, k3, _⟩ := h.act u v e
          rw [(h.conn u k2 v k3).2 (.single e)]
        · rcases hab with ⟨e3, e4⟩ | ⟨e3, e4⟩
          · rw [e3, e4, if_pos rfl, if_neg (Ne.symm hne)]
          · rw [e3, e4, if_pos rfl, if_neg (Ne.symm hne)]
        · rcases hab with ⟨e3, e4⟩ | ⟨e3, e4⟩
          · rw [e3, e4, if_pos rfl, if_neg (Ne.symm hne)]
          · rw [e3, e4, if_pos rfl, if_neg (Ne.symm hne)]
  · intro x hx e
    obtain ⟨e1, e2⟩ := (hroot x hx).1 e
    rw [hs.area]
    by_cases e3 : x = k
    · rw [e3, upd_same, h.area k hk rk, h.area c hc rc, ← Finset.card_union_of_disjoint]
      · congr 1
        ext p
        rw [Finset.mem_union, Finset.mem_filter, Finset.mem_filter, Finset.mem_filter]
        constructor
        · rintro (⟨h1, h2⟩ | ⟨h1, h2⟩)
          · exact ⟨h1, by rw [h2, if_neg (Ne.symm hne)]⟩
          · exact ⟨h1, by rw [if_pos h2]⟩
        · rintro ⟨h1, h2⟩
          by_cases h3 : rt p = c
          · exact .inr ⟨h1, h3⟩
          · rw [if_neg h3] at h2; exact .inl ⟨h1, h2⟩
      · rw [Finset.disjoint_left]
        intro p hp hp'
        rw [Finset.mem_filter] at hp hp'
        exact hne (hp'.2.symm.trans hp.2)
    · rw [upd_ne _ _ e3, h.area x hx e1]
      congr 1
      ext p
      rw [Finset.mem_filter, Finset.mem_filter]
      refine and_congr_right fun hp => ?_
      by_cases h3 : rt p = c
      · rw [if_pos h3, h3]
        exact ⟨fun h => absurd h.symm e2, fun h => absurd h.symm e3⟩
      · rw [if_neg h3]
  · -- closed regions
    intro x hx y hxy hlt
    have hanc : ∀ p x, Anc s p x → Anc s' p x := by
      intro p x h'
      induction h' with
      | refl => exact .refl
      | @tail u v _ e ih =>
        by_cases e1 : u = c
        · subst e1
          rw [h.root_par hc rc] at e
          injection e with e
          rw [← e]; exact ih
        · exact ih.tail (by rw [hpar u e1]; exact e)
    have hanc' : ∀ p x, Anc s' p x → Anc s p x ∨ x = k := by
      intro p x h'
      induction h' with
      | refl => exact .inl .refl
      | @tail u v _ e ih =>
        by_cases e1 : u = c
        · subst e1
          rw [hparc] at e
          injection e with e
          exact .inr e.symm
        · rw [hpar u e1] at e
          rcases ih with ih | ih
          · exact .inl (ih.tail e)
          · rw [ih, h.root_par hk rk] at e
            injection e with e
            exact .inr e.symm
    have hxk : x ≠ k := by
      rintro rfl
      rw [hpar x (Ne.symm hne), h.root_par hx rk] at hxy
      injection hxy with e
      subst e; omega
    rw [hs.area, upd_ne _ _ hxk]
    by_cases e : x = c
    · subst e
      rw [hparc] at hxy
      injection hxy with e
      subst e
      have hq := hcl hlt
      refine ⟨?_, fun p hp => ?_⟩
      · rw [h.area x hx rc]
        congr 1
        ext p
        rw [Finset.mem_filter, Finset.mem_filter]
        exact and_congr_right fun hp => hq p hp
      · rw [← hq p hp]
        constructor
        · intro h'
          rcases hanc' p x h' with h' | h'
          · exact (h.anc_mem hp h').2.symm.trans rc
          · exact absurd h' hne
        · intro h'
          refine hanc p x ?_
          rw [← h']; exact h.anc_rt hp
    · rw [hpar x e] at hxy
      obtain ⟨k1, k2⟩ := h.ext x hx y hxy hlt
      refine ⟨k1, fun p hp => ?_⟩
      rw [← k2 p hp]
      exact ⟨fun h' => (hanc' p x h').resolve_right hxk, hanc p x⟩
  · rw [hs.ner, h.ner, hup]
    by_cases hlt : g c < g k
    · rw [if_pos hlt]
      have : (P.filter fun x => ∃ y, s'.parent x = some y ∧ g x < g y) = insert c (P.filter fun x => ∃ y, s.parent x = some y ∧ g x < g y) := by
        ext x
        rw [Finset.mem_insert, Finset.mem_filter, Finset.mem_filter]
        by_cases e : x = c
        · subst e
          exact ⟨fun _ => .inl rfl, fun _ => ⟨hc, k, hparc, hlt⟩⟩
        · rw [hpar x e]
          exact ⟨.inr, fun h => h.resolve_left e⟩
      rw [this, Finset.card_insert_of_notMem]
      rw [Finset.mem_filter]
      rintro ⟨_, y, e1, e2⟩
      rw [h.root_par hc rc] at e1
      injection e1 with e1
      subst e1; omega
    · rw [if_neg hlt, Nat.add_zero]
      congr 1
      ext x
      rw [Finset.mem_filter, Finset.mem_filter]
      refine and_congr_right fun hx => ?_
      by_cases e : x = c
      · subst e
        rw [hparc, h.root_par hc rc]
        constructor
        · rintro ⟨y, e1, e2⟩
          injection e1 with e1
          subst e1; omega
        · rintro ⟨y, e1, e2⟩
          injection e1 with e1
          subst e1; omega
      · rw [hpar x e]

/-- Used edges inside of a tree change nothing. -/
theorem Inv.edge (h : Inv nel nb g P A rt d s) {a b : Nat} (ha : a ∈ P) (hb : b ∈ P) (hab : rt a = rt b) (hadj : adj nel nb a b)
    (hadj' : adj nel nb b a) : Inv nel nb g P (fun x y => A x y ∨ (x = a ∧ y = b) ∨ (x = b ∧ y = a)) rt d s := by
  refine ⟨h.sub, h.void, h.par, h.sc, h.depth, h.joins, ?_, ?_, h.area, h.ext, h.ner⟩
  · rintro x y (h1 | ⟨rfl, rfl⟩ | ⟨rfl, rfl⟩)
    · obtain ⟨k1, k2, k3, k4⟩ := h.act x y h1
      exact ⟨k1, k2, k3, .inl k4⟩
    · exact ⟨hadj, ha, hb, .inr (.inr ⟨rfl, rfl⟩)⟩
    · exact ⟨hadj', hb, ha, .inr (.inl ⟨rfl, rfl⟩)⟩
  · intro x hx y hy
    constructor
    · intro e
      exact rtg_mono (fun _ _ h => Or.inl h) ((h.conn x hx y hy).1 e)
    · intro h'
      clear hx hy
      induction h' with
      | refl => rfl
      | @tail u v _ e ih =>
        rw [ih]
        rcases e with e | ⟨rfl, rfl⟩ | ⟨rfl, rfl⟩
        · obtain ⟨_, k2, k3, _⟩ := h.act u v e
          exact (h.conn u k2 v k3).2 (.single e)
        · exact hab
        · exact hab.symm

/-- Other shortcuts. -/
theorem Inv.shortcuts (h : Inv nel nb g P A rt d s) (hs : SC (· ∈ P) s'.sc rt d) (h1 : s'.parent = s.parent) (h2 : s'.area = s.area)
    (h3 : s'.njoins = s.njoins) (h4 : s'.ner = s.ner) : Inv nel nb g P A rt d s' := by
  have ha : Anc s' = Anc s := by unfold Anc; rw [h1]
  refine ⟨h.sub, by rw [h1]; exact h.void, by rw [h1]; exact h.par, hs, by rw [h3]; exact h.depth, by rw [h3]; exact h.joins, h.act, h.conn,
    by rw [h2]; exact h.area, by rw [h1, h2, ha]; exact h.ext, by rw [h1, h4]; exact h.ner⟩

/-- A new pixel. -/
theorem Inv.enter (h : Inv nel nb g P A rt d s) {i : Nat} (hi : i < nel) (hn : i ∉ P) (hg : ∀ x ∈ P, g x ≤ g i) :
    Inv nel nb g (insert i P) A (upd rt i i) (upd d i 0) (enter s i) := by
  have ne : ∀ x ∈ P, x ≠ i := fun x hx e => hn (by rw [← e]; exact hx)
  have hrt : ∀ x ∈ P, upd rt i i x = rt x := fun x hx => upd_ne _ _ (ne x hx)
  have hd : ∀ x ∈ P, upd d i 0 x = d x := fun x hx => upd_ne _ _ (ne x hx)
  have hpar : ∀ x, x ≠ i → (VlFeat.enter s i).parent x = s.parent x := fun x e => upd_ne _ _ e
  have hpari : (VlFeat.enter s i).parent i = some i := upd_same _ _ _
  have hsc : ∀ x, x ≠ i → (VlFeat.enter s i).sc x = s.sc x := fun x e => upd_ne _ _ e
  have hsci : (VlFeat.enter s i).sc i = i := upd_same _ _ _
  have hrti : upd rt i i i = i := upd_same _ _ _
  have hri : ∀ x ∈ P, rt x ≠ i := fun x hx => ne _ (h.rt_mem hx)
  have hA : ∀ x y, ReflTransGen A x y → x = y ∨ x ∈ P ∧ y ∈ P := by
    intro x y h'
    induction h' with
    | refl => exact .inl rfl
    | @tail u v _ e ih =>
      obtain ⟨_, k2, k3, _⟩ := h.act u v e
      rcases ih with rfl | ih
      · exact .inr ⟨k2, k3⟩
      · exact .inr ⟨ih.1, k3⟩
  refine ⟨?_, ?_, ?_, ?_, ?_, ?_, ?_, ?_, ?_, ?_, ?_⟩
  · intro x hx
    rcases Finset.mem_insert.1 hx with rfl | hx
    · exact hi
    · exact h.sub x hx
  · intro x hx
    rw [Finset.mem_insert, not_or] at hx
    rw [hpar x hx.1]; exact h.void x hx.2
  · intro x hx
    rcases Finset.mem_insert.1 hx with rfl | hx
    · exact ⟨x, hx, hpari, rfl, by simp [hrti], le_refl _, fun e => absurd rfl e⟩
    · obtain ⟨y, hy, h1, h2, h3, h4, h5⟩ := h.par x hx
      exact ⟨y, Finset.mem_insert_of_mem hy, by rw [hpar x (ne x hx), h1], by rw [hrt x hx, hrt y hy, h2], by rw [hrt x hx]; exact h3, h4,
        by rw [hd x hx, hd y hy]; exact h5⟩
  · refine ⟨?_, ?_, ?_, ?_⟩
    · intro x hx
      rcases Finset.mem_insert.1 hx with rfl | hx
      · rw [hsci]; exact hx
      · rw [hsc x (ne x hx)]; exact Finset.mem_insert_of_mem (h.sc.mem x hx)
    · intro x hx e
      rcases Finset.mem_insert.1 hx with rfl | hx
      · exact hrti
      · rw [hsc x (ne x hx)] at e; rw [hrt x hx]; exact h.sc.root x hx e
    · intro x hx
      rcases Finset.mem_insert.1 hx with rfl | hx
      · rw [hsci]
      · rw [hsc x (ne x hx), hrt x hx, hrt _ (h.sc.mem x hx)]; exact h.sc.rt x hx
    · intro x hx e
      rcases Finset.mem_insert.1 hx with rfl | hx
      · exact absurd hsci e
      · rw [hsc x (ne x hx)] at e ⊢
        rw [hd x hx, hd _ (h.sc.mem x hx)]; exact h.sc.up x hx e
  · intro x hx
    rcases Finset.mem_insert.1 hx with rfl | hx
    · rw [upd_same]; exact Nat.zero_le _
    · rw [hd x hx]; exact h.depth x hx
  · have : ((insert i P).filter fun x => upd rt i i x = x) = insert i (P.filter fun x => rt x = x) := by
      rw [Finset.filter_insert, if_pos hrti]
      congr 1
      exact Finset.filter_congr fun x hx => by rw [hrt x hx]
    rw [this, Finset.card_insert_of_notMem (fun h' => hn (Finset.mem_filter.1 h').1), Finset.card_insert_of_notMem hn]
    have := h.joins
    show s.njoins + _ = _
    omega
  · intro x y h'
    obtain ⟨k1, k2, k3, k4⟩ := h.act x y h'
    exact ⟨k1, Finset.mem_insert_of_mem k2, Finset.mem_insert_of_mem k3, k4⟩
  · intro x hx y hy
    rcases Finset.mem_insert.1 hx with rfl | hx
    · rcases Finset.mem_insert.1 hy with rfl | hy
      · exact ⟨fun _ => .refl, fun _ => rfl⟩
      · rw [hrti, hrt y hy]
        refine ⟨fun e => absurd e.symm (hri y hy), fun h' => ?_⟩
        rcases hA _ _ h' with e | ⟨e, _⟩
        · exact absurd e.symm (ne y hy)
        · exact absurd e hn
    · have hxP := hx
      rcases Finset.mem_insert.1 hy with rfl | hy
      · rw [hrti, hrt x hxP]
        refine ⟨fun e => absurd e (hri x hxP), fun h' => ?_⟩
        rcases hA _ _ h' with e | ⟨_, e⟩
        · exact absurd e (ne x hxP)
        · exact absurd e hn
      · rw [hrt x hx, hrt y hy]; exact h.conn x hx y hy
  · intro x hx e
    rcases Finset.mem_insert.1 hx with rfl | hx
    · show upd s.area x 1 x = _
      rw [upd_same, Finset.filter_insert, if_pos hrti]
      have : (P.filter fun p => upd rt x x p = x) = ∅ := by
        rw [Finset.filter_eq_empty_iff]
        intro p hp
        rw [hrt p hp]; exact hri p hp
      rw [this]; rfl
    · rw [hrt x hx] at e
      show upd s.area i 1 x = _
      rw [upd_ne _ _ (ne x hx), h.area x hx e, Finset.filter_insert, if_neg (by rw [hrti]; exact (ne x hx).symm)]
      congr 1
      exact Finset.filter_congr fun p hp => by rw [hrt p hp]
  · intro x hx y hxy hlt
    rcases Finset.mem_insert.1 hx with rfl | hx
    · rw [hpari] at hxy
      injection hxy with e
      subst e; omega
    · rw [hpar x (ne x hx)] at hxy
      have hyP : y ∈ P := by
        obtain ⟨y', hy', h1, -⟩ := h.par x hx
        rw [h1] at hxy; injection hxy with e
        rw [← e]; exact hy'
      obtain ⟨k1, k2⟩ := h.ext x hx y hxy hlt
      have hgi := hg y hyP
      have hno : ¬ LConn (adj nel nb) g (g x) x i := by
        intro h'
        unfold Spec.LConn at h'
        rcases Relation.ReflTransGen.cases_tail h' with e | ⟨z, _, _, _, e⟩
        · exact ne x hx e.symm
        · omega
      have hanc : ∀ p, p ∈ P → ∀ z, (Anc (VlFeat.enter s i) p z ↔ Anc s p z) := by
        intro p hp z
        constructor
        · intro h'
          induction h' with
          | refl => exact .refl
          | @tail u v _ e ih =>
            have hu := (h.anc_mem hp ih).1
            rw [hpar u (ne u hu)] at e
            exact ih.tail e
        · intro h'
          induction h' with
          | refl => exact .refl
          | @tail u v huv e ih =>
            have hu := (h.anc_mem hp huv).1
            exact ih.tail (by rw [hpar u (ne u hu)]; exact e)
      have hxi := ne x hx
      refine ⟨?_, ?_⟩
      · show upd s.area i 1 x = _
        rw [upd_ne _ _ (ne x hx), Finset.filter_insert, if_neg hno]
        exact k1
      · intro p hp
        rcases Finset.mem_insert.1 hp with rfl | hp
        · refine ⟨fun h' => ?_, fun h' => absurd h' hno⟩
          have : ∀ z, Anc (VlFeat.enter s p) p z → z = p := by
            intro z h'
            induction h' with
            | refl => rfl
            | tail _ e ih => rw [ih, hpari] at e; injection e with e; exact e.symm
          exact absurd (this x h') hxi
        · rw [hanc p hp]; exact k2 p hp
  · show s.ner = _
    rw [h.ner, Finset.filter_insert, if_neg]
    · congr 1
      exact Finset.filter_congr fun x hx => by rw [hpar x (ne x hx)]
    · rintro ⟨y, e1, e2⟩
      rw [hpari] at e1
      injection e1 with e1
      subst e1; omega

end Verif.VlFeat
