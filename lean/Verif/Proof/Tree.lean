import Verif.Proof.Conn
import Mathlib.Data.Finset.Lattice.Fold
import Mathlib.Data.Finset.Filter

/-!
# Consequences of being a component tree
-/

namespace Verif.Spec

open Relation (ReflTransGen)

variable {α ι : Type _} {adj : α → α → Prop} {g : α → Nat} {px : Finset α} {T : RegionTree α ι}

/-- Reflexive ancestor relation. -/
def RegionTree.Anc (T : RegionTree α ι) : ι → ι → Prop :=
  ReflTransGen (fun a b => T.parent a = some b)

theorem RegionTree.Anc.total {a b c : ι} (h1 : T.Anc a b) (h2 : T.Anc a c) :
    T.Anc b c ∨ T.Anc c b :=
  ReflTransGen.total_of_right_unique (fun x y z hy hz => by
    simp only [hy] at hz; exact Option.some.inj hz) h1 h2

theorem IsComponentTree.anc_reg (h : IsComponentTree adj g px T) {a b : ι} (ha : T.isReg a)
    (hab : T.Anc a b) : T.isReg b ∧ T.gray a ≤ T.gray b ∧ (a ≠ b → T.gray a < T.gray b) := by
  induction hab with
  | refl => exact ⟨ha, le_refl _, fun h => absurd rfl h⟩
  | tail _ h1 ih =>
    obtain ⟨h2, h3, _⟩ := ih
    obtain ⟨h4, h5⟩ := h.parent_reg _ h2 _ h1
    exact ⟨h4, by omega, fun _ => by omega⟩

/-- grays of regions are bounded -/
theorem IsComponentTree.gray_le (h : IsComponentTree adj g px T) {r : ι} (hr : T.isReg r) :
    T.gray r ≤ px.sup g := by
  obtain ⟨p, hp, rfl⟩ := h.reg_lab r hr
  rw [h.lab_gray p hp]; exact Finset.le_sup hp

/-- Climb from `r` while the parent's level is at most `l`. -/
theorem IsComponentTree.climb (h : IsComponentTree adj g px T) (l : Nat) {r : ι} (hr : T.isReg r)
    (hl : T.gray r ≤ l) : ∃ r', T.isReg r' ∧ T.Anc r r' ∧ T.gray r' ≤ l ∧
      ∀ r'', T.parent r' = some r'' → l < T.gray r'' := by
  generalize hk : px.sup g - T.gray r = k
  induction k using Nat.strong_induction_on generalizing r with
  | _ k ih =>
    by_cases hp : ∃ r1, T.parent r = some r1 ∧ T.gray r1 ≤ l
    · obtain ⟨r1, h1, h2⟩ := hp
      obtain ⟨h3, h4⟩ := h.parent_reg r hr r1 h1
      have := h.gray_le h3
      obtain ⟨r', a1, a2, a3, a4⟩ := ih _ (by omega) h3 h2 rfl
      exact ⟨r', a1, .head h1 a2, a3, a4⟩
    · exact ⟨r, hr, .refl, hl, fun r'' h1 => by
        by_contra h2; exact hp ⟨r'', h1, by omega⟩⟩

theorem IsComponentTree.under_reg (h : IsComponentTree adj g px T) {r : ι} {p : α} (hp : p ∈ px)
    (hu : T.Under r p) : T.isReg r ∧ g p ≤ T.gray r := by
  have := h.anc_reg (h.lab_reg p hp) hu
  rw [h.lab_gray p hp] at this
  exact ⟨this.1, this.2.1⟩

/-- Two regions containing a common pixel, the first not above the second's level, are related. -/
theorem IsComponentTree.anc_of_common (h : IsComponentTree adj g px T) {r r' : ι} {p : α}
    (hp : p ∈ px) (hr : T.Under r p) (hr' : T.Under r' p) (hg : T.gray r ≤ T.gray r') :
    T.Anc r r' := by
  rcases RegionTree.Anc.total (T := T) hr hr' with h1 | h1
  · exact h1
  · have h2 := h.anc_reg (h.under_reg hp hr').1 h1
    by_cases e : r' = r
    · subst e; exact .refl
    · have := h2.2.2 e; omega

/-- The region of a threshold component. -/
theorem IsComponentTree.threshold (h : IsComponentTree adj g px T)
    (hsym : ∀ a b, adj a b → adj b a) (hpx : ∀ a b, adj a b → b ∈ px)
    {p : α} (hp : p ∈ px) {l : Nat} (hl : g p ≤ l) :
    ∃ r, T.isReg r ∧ T.Under r p ∧ T.gray r ≤ l ∧
      (∀ r', T.parent r = some r' → l < T.gray r') ∧
      ∀ q ∈ px, (T.Under r q ↔ LConn adj g l p q) := by
  obtain ⟨r, h1, h2, h3, h4⟩ := h.climb l (h.lab_reg p hp) (by rw [h.lab_gray p hp]; exact hl)
  refine ⟨r, h1, h2, h3, h4, ?_⟩
  intro q hq
  constructor
  · intro hu
    exact ((h.comp r h1 p hp h2 q hq).1 hu).mono h3
  · intro hc
    have : q ∈ px ∧ T.Under r q := by
      clear hq
      induction hc with
      | refl => exact ⟨hp, h2⟩
      | @tail b c _ hbc ih =>
        obtain ⟨hb, hub⟩ := ih
        have hcm := hpx _ _ hbc.1
        refine ⟨hcm, ?_⟩
        by_cases hg : g c ≤ T.gray r
        · exact (h.comp r h1 b hb hub c hcm).2
            (LConn.edge hbc.1 (h.under_reg hb hub).2 hg)
        · have hub' : T.Under (T.lab c) b :=
            (h.comp (T.lab c) (h.lab_reg c hcm) c hcm .refl b hb).2 (by
              rw [h.lab_gray c hcm]
              have := (h.under_reg hb hub).2
              exact LConn.edge (hsym _ _ hbc.1) (le_refl _) (by omega))
          have ha := h.anc_of_common hb hub hub' (by rw [h.lab_gray c hcm]; omega)
          rcases ReflTransGen.cases_head ha with e | ⟨r', h5, h6⟩
          · exfalso; apply hg; rw [e, h.lab_gray c hcm]
          · have h7 := h4 r' h5
            have h8 := h.anc_reg (h.parent_reg r h1 r' h5).1 h6
            rw [h.lab_gray c hcm] at h8
            have := hbc.2.2
            omega
    exact this.2

/-- Two regions with a common pixel at the same threshold are equal. -/
theorem IsComponentTree.threshold_unique (h : IsComponentTree adj g px T) {p : α} (hp : p ∈ px)
    {l : Nat} {r r' : ι} (hr : T.Under r p) (hr' : T.Under r' p) (hl : T.gray r ≤ l)
    (hl' : T.gray r' ≤ l) (hm : ∀ x, T.parent r = some x → l < T.gray x)
    (hm' : ∀ x, T.parent r' = some x → l < T.gray x) : r = r' := by
  have aux : ∀ a b, T.Under a p → T.Under b p → T.gray b ≤ l →
      (∀ x, T.parent a = some x → l < T.gray x) → T.Anc a b → a = b := by
    intro a b ha hb hbl hm hab
    rcases ReflTransGen.cases_head hab with e | ⟨x, h1, h2⟩
    · exact e
    · have := hm x h1
      have h3 := h.anc_reg (h.parent_reg a (h.under_reg hp ha).1 x h1).1 h2
      omega
  rcases RegionTree.Anc.total (T := T) hr hr' with h1 | h1
  · exact aux r r' hr hr' hl' hm h1
  · exact (aux r' r hr' hr hl hm' h1).symm

/-- Pixels share their own region exactly when they are connected at their common level. -/
theorem IsComponentTree.lab_eq (h : IsComponentTree adj g px T) {p q : α} (hp : p ∈ px) (hq : q ∈ px) :
    T.lab p = T.lab q ↔ g p = g q ∧ LConn adj g (g p) p q := by
  constructor
  · intro he
    refine ⟨by rw [← h.lab_gray p hp, he, h.lab_gray q hq], ?_⟩
    have := (h.comp (T.lab p) (h.lab_reg p hp) p hp .refl q hq).1 (by rw [he]; exact .refl)
    rwa [h.lab_gray p hp] at this
  · rintro ⟨hg, hc⟩
    have : T.Under (T.lab p) q :=
      (h.comp (T.lab p) (h.lab_reg p hp) p hp .refl q hq).2 (by rwa [h.lab_gray p hp])
    have h2 := h.anc_reg (h.lab_reg q hq) this
    by_contra hne
    have := h2.2.2 (Ne.symm hne)
    rw [h.lab_gray p hp, h.lab_gray q hq] at this
    omega

open Classical in
/-- recorded size as a cardinality -/
theorem IsComponentTree.size_card (h : IsComponentTree adj g px T) {r : ι} (hr : T.isReg r) :
    T.size r = (px.filter (fun q => T.Under r q)).card :=
  h.size_eq r hr _ (by simp)

/-- A parent is strictly bigger. -/
theorem IsComponentTree.size_lt (h : IsComponentTree adj g px T) {r r' : ι} (hr : T.isReg r)
    (hp : T.parent r = some r') : T.size r < T.size r' := by
  classical
  obtain ⟨h1, h2⟩ := h.parent_reg r hr r' hp
  rw [h.size_card hr, h.size_card h1]
  apply Finset.card_lt_card
  rw [Finset.ssubset_iff_of_subset]
  · obtain ⟨p, hp', rfl⟩ := h.reg_lab r' h1
    refine ⟨p, Finset.mem_filter.2 ⟨hp', .refl⟩, ?_⟩
    intro hm
    have := (h.under_reg hp' (Finset.mem_filter.1 hm).2).2
    rw [h.lab_gray p hp'] at h2; omega
  · intro q hq
    rw [Finset.mem_filter] at hq ⊢
    exact ⟨hq.1, .tail hq.2 hp⟩

/-- On a connected pixel graph the tree has exactly one root and it contains every pixel. -/
theorem IsComponentTree.root (h : IsComponentTree adj g px T)
    (hpx : ∀ a b, adj a b → a ∈ px ∧ b ∈ px) (hsym : ∀ a b, adj a b → adj b a)
    {s : α} (hs : s ∈ px) (hconn : ∀ p ∈ px, ReflTransGen adj s p) :
    ∃ r, T.isReg r ∧ T.parent r = none ∧ (∀ r', T.isReg r' → T.parent r' = none → r' = r) ∧
      ∀ p ∈ px, T.Under r p := by
  let M := px.sup g
  have hM : ∀ p ∈ px, g p ≤ M := fun p hp => Finset.le_sup hp
  have hlc : ∀ p ∈ px, LConn adj g M s p := by
    intro p hp
    have := hconn p hp
    clear hp
    induction this with
    | refl => exact .refl
    | tail _ h1 ih => exact .tail ih ⟨h1, hM _ (hpx _ _ h1).1, hM _ (hpx _ _ h1).2⟩
  obtain ⟨r, h1, h2, h3, h4, h5⟩ := h.threshold hsym (fun a b hab => (hpx a b hab).2) hs (hM s hs)
  have hroot : T.parent r = none := by
    cases hp : T.parent r with
    | none => rfl
    | some x =>
      have := h4 x hp
      have := h.gray_le (h.parent_reg r h1 x hp).1
      omega
  have hall : ∀ p ∈ px, T.Under r p := fun p hp => (h5 p hp).2 (hlc p hp)
  refine ⟨r, h1, hroot, ?_, hall⟩
  intro r' hr' hp'
  obtain ⟨p, hp, rfl⟩ := h.reg_lab r' hr'
  have := hall p hp
  rcases ReflTransGen.cases_head this with e | ⟨x, h6, _⟩
  · exact e
  · rw [hp'] at h6; simp at h6

end Verif.Spec
