import Verif.Proof.OriginalFlood
import Verif.Proof.ConnectTree

/-!
# Original detector: the regions form the component tree
-/

namespace Verif.Spec

/-- A component tree on images of pixels, read on the pixels. -/
theorem IsComponentTree.comap {α β ι : Type} {adj : α → α → Prop} {g : α → Nat} {px : Finset α} {adj' : β → β → Prop}
    {g' : β → Nat} {px' : Finset β} {T : RegionTree β ι} (h : IsComponentTree adj' g' px' T) (f : α → β)
    (hpx : ∀ b, b ∈ px' ↔ ∃ a ∈ px, f a = b) (hinj : ∀ a ∈ px, ∀ b ∈ px, f a = f b → a = b)
    (hadj : ∀ a ∈ px, ∀ b ∈ px, (adj a b ↔ adj' (f a) (f b))) (hmem : ∀ a b, adj a b → a ∈ px ∧ b ∈ px)
    (hmem' : ∀ a b, adj' a b → a ∈ px' ∧ b ∈ px') (hg : ∀ a ∈ px, g a = g' (f a)) :
    IsComponentTree adj g px ⟨T.isReg, fun a => T.lab (f a), T.gray, T.parent, T.size⟩ := by
  have hin : ∀ a ∈ px, f a ∈ px' := fun a ha => (hpx _).2 ⟨a, ha, rfl⟩
  have hconn : ∀ l, ∀ a ∈ px, ∀ b ∈ px, (LConn adj g l a b ↔ LConn adj' g' l (f a) (f b)) := by
    intro l a ha b hb
    constructor
    · intro hc
      induction hc with
      | refl => exact .refl
      | @tail x y _ h2 ih =>
        have hx := (hmem _ _ h2.1).1
        exact (ih hx).tail ⟨(hadj x hx y hb).1 h2.1, by rw [← hg x hx]; exact h2.2.1, by rw [← hg y hb]; exact h2.2.2⟩
    · have : ∀ c d, LConn adj' g' l c d → ∀ a ∈ px, f a = c → ∀ b ∈ px, f b = d → LConn adj g l a b := by
        intro c d hc a ha hac
        induction hc with
        | refl => intro b hb e; rw [hinj a ha b hb (hac.trans e.symm)]; exact .refl
        | @tail x y _ h2 ih =>
          intro b hb e
          obtain ⟨z, hz, ez⟩ := (hpx x).1 (hmem' _ _ h2.1).1
          refine (ih z hz ez).tail ⟨(hadj z hz b hb).2 (by rw [ez, e]; exact h2.1), ?_, ?_⟩
          · rw [hg z hz, ez]; exact h2.2.1
          · rw [hg b hb, e]; exact h2.2.2
      exact fun hc => this _ _ hc a ha rfl b hb rfl
  refine ⟨fun p hp => h.lab_reg _ (hin p hp), fun p hp => by rw [hg p hp]; exact h.lab_gray _ (hin p hp), ?_,
    h.parent_reg, ?_, ?_⟩
  · intro r hr
    obtain ⟨b, hb, e⟩ := h.reg_lab r hr
    obtain ⟨a, ha, rfl⟩ := (hpx b).1 hb
    exact ⟨a, ha, e⟩
  · intro r hr p hp hu q hq
    rw [hconn _ p hp q hq]
    exact h.comp r hr _ (hin p hp) hu _ (hin q hq)
  · intro r hr s hs
    classical
    have h1 := h.size_eq r hr (s.image f) ?_
    · show T.size r = _
      rw [h1, Finset.card_image_of_injOn]
      intro a ha b hb e
      exact hinj a ((hs a).1 ha).1 b ((hs b).1 hb).1 e
    · intro b
      rw [Finset.mem_image]
      constructor
      · rintro ⟨a, ha, rfl⟩
        have := (hs a).1 ha
        exact ⟨hin a this.1, this.2⟩
      · rintro ⟨hb, hu⟩
        obtain ⟨a, ha, rfl⟩ := (hpx b).1 hb
        exact ⟨a, (hs a).2 ⟨ha, hu⟩, rfl⟩

end Verif.Spec

namespace Verif.Original

open Relation (ReflTransGen)
open Verif.Spec
open Verif.Connect (Forest Str Res forestTree)

/-- The parents, levels, sizes and merged flags of the regions. -/
def forest (s : St) : Forest Nat := fun r =>
  if r < s.nreg then ⟨(s.regs r).gray, (s.regs r).parent, (s.regs r).merged, (s.regs r).size⟩ else ⟨0, none, false, 0⟩

/-- The region a cell was put into when it was first seen. -/
def labOf (s : St) (c : Nat) : Nat := (s.pts c).reg.getD 0

/-- The tree that recognition reads from the regions: merged regions stand for their parents. -/
def cellTree (s : St) : RegionTree Nat Nat := forestTree s.nreg (fun r => r < s.nreg) (labOf s) (forest s)

variable {E : Env} {all : List Nat} {s : St} {Ls : Nat → List Nat} {g cur : Nat}

theorem forest_of {r : Nat} (hr : r < s.nreg) :
    forest s r = ⟨(s.regs r).gray, (s.regs r).parent, (s.regs r).merged, (s.regs r).size⟩ := if_pos hr

theorem forest_up {a b : Nat} (h : Inv E s Ls g cur []) (ha : a < s.nreg) : Connect.Up (forest s) a b ↔ Up (par s) a b := by
  constructor
  · intro hu
    have : b < s.nreg ∧ Up (par s) a b := by
      induction hu with
      | refl => exact ⟨ha, .refl⟩
      | tail _ h2 ih =>
        rw [forest_of ih.1] at h2
        exact ⟨(h.par_lt _ ih.1 _ h2).2, ih.2.tail h2⟩
    exact this.2
  · intro hu
    induction hu with
    | refl => exact .refl
    | tail h1 h2 ih =>
      refine ih.tail ?_
      have := (h.up_lt ha h1).1
      show (forest s _).parent = _
      rw [forest_of this]; exact h2

theorem forest_str (h : Inv E s Ls g cur []) (hv : ∀ c, E.inn c → E.val c < 256) :
    Str (fun r => r < s.nreg) (fun r => (forest s r).gray) (forest s) s.nreg := by
  refine ⟨fun _ => rfl, ?_, ?_, ?_, ?_, ?_, ?_⟩
  · intro r hr
    rw [forest_of hr]
    have h1 := h.reg _ _ (h.head_reg r hr)
    show (s.regs r).gray < 256
    rw [← h1.2.2]; exact hv _ h1.2.1
  · intro r hr r' hp
    rw [forest_of hr] at hp
    exact (h.par_lt r hr r' hp).2
  · intro r r' hp
    by_contra hr
    rw [forest, if_neg hr] at hp
    cases hp
  · intro r hr hm r' hp
    rw [forest_of hr] at hp hm
    have h1 := (h.par_lt r hr r' hp).2
    rw [forest_of hr, forest_of h1]
    have h2 := h.gray_le r hr r' hp
    have h3 : (s.regs r).gray ≠ (s.regs r').gray := by
      intro e
      have := (h.merged r hr).2 ⟨r', hp, e⟩
      change (s.regs r).merged = false at hm
      rw [this] at hm; cases hm
    show (s.regs r).gray < (s.regs r').gray
    omega
  · intro r hr hm
    rw [forest_of hr] at hm
    obtain ⟨p, h1, h2⟩ := (h.merged r hr).1 hm
    refine ⟨p, by rw [forest_of hr]; exact h1, ?_⟩
    rw [forest_of hr, forest_of (h.par_lt r hr p h1).2]
    exact h2.symm
  · have : ∀ n r, s.nreg - r ≤ n → r < s.nreg → ∃ k, k ≤ n ∧ ∃ x, Res (forest s) k r x := by
      intro n
      induction n with
      | zero => intro r h1 h2; omega
      | succ n ih =>
        intro r h1 hr
        cases hm : (forest s r).merged with
        | false => exact ⟨0, by omega, r, hm, rfl⟩
        | true =>
          have hm' := hm
          rw [forest_of hr] at hm'
          obtain ⟨p, h2, -⟩ := (h.merged r hr).1 hm'
          have h3 := h.par_lt r hr p h2
          obtain ⟨k, hk, x, hx⟩ := ih p (by omega) h3.2
          exact ⟨k + 1, by omega, x, hm, p, by rw [forest_of hr]; exact h2, hx⟩
    intro r hr
    obtain ⟨k, hk, x, hx⟩ := this s.nreg r (by omega) hr
    exact ⟨k, hk, x, hx⟩

section
variable (h : Inv E s Ls g cur []) (hseen : ∀ c, E.inn c → ∃ q, (s.pts c).reg = some q)
  (hmem : ∀ c, c ∈ all ↔ E.inn c) (hv : ∀ c, E.inn c → E.val c < 256)
include h hseen hmem hv

theorem labOf_reg (c : Nat) (hc : c ∈ all.toFinset) : labOf s c < s.nreg := by
  obtain ⟨q, hq⟩ := hseen c ((hmem c).1 (List.mem_toFinset.1 hc))
  rw [labOf, hq]; exact (h.reg c q hq).1

/-- The cells of a region are those of its list. -/
theorem under_iff {r : Nat} (hr : r < s.nreg) (hm : (s.regs r).merged = false) {c : Nat} (hc : c ∈ all.toFinset) :
    (cellTree s).Under r c ↔ c ∈ Ls r := by
  obtain ⟨-, -, -, -, h1⟩ := (forest_str h hv).view (labOf_reg h hseen hmem hv) (le_refl s.nreg)
  have h2 := h1 r (by rw [forest_of hr]; exact hm) c hc
  show (forestTree _ _ _ _).Under r c ↔ _
  obtain ⟨q, hq⟩ := hseen c ((hmem c).1 (List.mem_toFinset.1 hc))
  have hlt := labOf_reg h hseen hmem hv c hc
  rw [h2, forest_up h hlt, h.mem r hr c]
  constructor
  · intro hu; exact ⟨_, hq, by rw [labOf, hq] at hu; exact hu⟩
  · rintro ⟨q', hq', hu⟩; rw [labOf, hq']; exact hu

/-- A region without merging into its parent is closed under paths at its level. -/
theorem closed_level {r : Nat} (hr : r < s.nreg) (hm : (s.regs r).merged = false) {c o : Nat} (hc : c ∈ Ls r)
    (ha : E.adj c o) (ho : E.val o ≤ (s.regs r).gray) (hsymm : ∀ a b, E.adj a b → E.adj b a) : o ∈ Ls r := by
  cases hp : par s r with
  | some p => exact h.closed r hr p hp hm c hc o ha ho
  | none =>
    obtain ⟨q, hq⟩ := hseen c ha.1
    rcases le_or_gt (E.val o) (E.val c) with hle | hgt
    · exact h.done c q hq (by simp) o ha hle r hr hp hc
    · obtain ⟨q', hq'⟩ := hseen o ha.2.1
      obtain ⟨r', h1, h2, h3⟩ := h.root_of hq'
      have h4 := h.done o q' hq' (by simp) c (hsymm _ _ ha) hgt.le r' h1 h2 h3
      rw [h.root_same hr h1 hp h2 hc h4]; exact h3

theorem cellTree_spec (hsymm : ∀ a b, E.adj a b → E.adj b a) : IsComponentTree E.adj E.val all.toFinset (cellTree s) := by
  have hstr := forest_str h hv
  obtain ⟨hlab, hpar, hreal, -, -⟩ := hstr.view (labOf_reg h hseen hmem hv) (le_refl s.nreg)
  have hlt := labOf_reg h hseen hmem hv
  have hund := fun {r} hr hm {c} hc => under_iff h hseen hmem hv (r := r) hr hm (c := c) hc
  have hlive : ∀ r, (cellTree s).isReg r → r < s.nreg ∧ (s.regs r).merged = false := by
    rintro r ⟨h1, h2⟩
    change (forest s r).merged = false at h2
    rw [forest_of h1] at h2
    exact ⟨h1, h2⟩
  have hgr : ∀ r < s.nreg, (cellTree s).gray r = (s.regs r).gray := by
    intro r hr
    show (forest s r).gray = _
    rw [forest_of hr]
  refine ⟨?_, ?_, ?_, ?_, ?_, ?_⟩
  · intro p hp
    obtain ⟨k, hk⟩ := hlab p hp
    exact ⟨(hstr.res_gray (hlt p hp) hk).1, hk.live⟩
  · intro p hp
    obtain ⟨k, hk⟩ := hlab p hp
    have h1 := (hstr.res_gray (hlt p hp) hk).2
    show (forest s _).gray = _
    refine h1.trans ?_
    show (forest s (labOf s p)).gray = _
    rw [forest_of (hlt p hp)]
    obtain ⟨q, hq⟩ := hseen p ((hmem p).1 (List.mem_toFinset.1 hp))
    rw [labOf, hq]
    exact (h.reg p q hq).2.2.symm
  · intro r hr
    obtain ⟨h1, h2⟩ := hlive r hr
    have h3 := h.head_reg r h1
    have h4 := h.reg _ _ h3
    refine ⟨(s.regs r).head, List.mem_toFinset.2 ((hmem _).2 h4.2.1), ?_⟩
    show ((Connect.chase _ _ _).getD none).getD _ = r
    rw [show labOf s (s.regs r).head = r by rw [labOf, h3]; rfl,
      Connect.chase_res (show Res (forest s) 0 r r from ⟨hr.2, rfl⟩) (Nat.zero_le _)]
    rfl
  · intro r hr r' h1
    obtain ⟨k1, k2, k3, -⟩ := hreal r hr.1 hr.2 r' h1
    exact ⟨⟨k1, k2⟩, k3⟩
  · intro r hr p hp hu q hq
    obtain ⟨h1, h2⟩ := hlive r hr
    rw [hund h1 h2 hp] at hu
    rw [hund h1 h2 hq, hgr r h1]
    constructor
    · exact h.conn r h1 p hu q
    · intro hc
      clear hq
      induction hc with
      | refl => exact hu
      | tail _ hxy ih => exact closed_level h hseen hmem hv h1 h2 ih hxy.1 hxy.2.2 hsymm
  · intro r hr t ht
    obtain ⟨h1, h2⟩ := hlive r hr
    show (forest s r).size = _
    rw [forest_of h1]
    show (s.regs r).size = _
    rw [h.size r h1, ← List.toFinset_card_of_nodup (h.nodup r h1)]
    congr 1
    ext c
    rw [List.mem_toFinset, ht c]
    constructor
    · intro hc
      have h3 : c ∈ all.toFinset := List.mem_toFinset.2 ((hmem c).2 (h.inn h1 hc))
      exact ⟨h3, (hund h1 h2 h3).2 hc⟩
    · rintro ⟨h3, h4⟩; exact (hund h1 h2 h3).1 h4

end

end Verif.Original
