import Verif.Proof.FloodInv

/-!
# Flooding: the tour of the neighbours preserves the invariant
-/

namespace Verif.Flood

open Function (update)
open Verif.Spec (LConn)
open Relation (ReflTransGen)

section
variable {P : Patch} {cnt lab : Nat → Nat} {heap : Nat → List Nat} {cs : List Comp}
  {regs : Nat → Reg} {nreg : Nat} {F : Finset Nat} {isCur : Nat → Prop} {a m : Nat}

theorem Core.gray_ge (h : Core P cnt lab heap cs regs nreg F isCur a m) {c : Comp} (hc : c ∈ cs) :
    m ≤ c.gray := by
  obtain ⟨c0, rest, rfl, rfl⟩ := h.cs_top
  have := h.cs_sorted
  rw [List.pairwise_cons] at this
  rcases List.mem_cons.1 hc with rfl | hc
  · exact le_refl _
  · exact (this.1 c hc).le

theorem Core.lvl_ge (h : Core P cnt lab heap cs regs nreg F isCur a m) {l i : Nat}
    (hi : i ∈ heap l) : m ≤ l := by
  by_contra hlt
  rw [h.heap_low l (by omega)] at hi
  simp at hi

theorem Core.anc_lt (h : Core P cnt lab heap cs regs nreg F isCur a m) {i r : Nat}
    (hi : i ∈ F) (hr : Anc regs (lab i) r) : r < nreg :=
  (Anc.lt h.reg_parent (h.lab_ok i hi).1 hr).1

/-- Moving the anchor to a pixel connected to it at the current level. -/
theorem Core.anchor (h : Core P cnt lab heap cs regs nreg F isCur a m) {b : Nat}
    (hab : LConn P.adj P.gray m a b) : Core P cnt lab heap cs regs nreg F isCur b m :=
  { h with
    heap_conn := fun l i hi => (h.heap_conn l i hi).trans (hab.mono (h.lvl_ge hi))
    cs_conn := fun c hc i hi hr => (h.cs_conn c hc i hi hr).trans (hab.mono (h.gray_ge hc)) }

end

theorem Anc.fresh {regs : Nat → Reg} {n : Nat} {x : Reg}
    (hn : ∀ a < n, ∀ b, (regs a).parent = some b → b < n) {a r : Nat} (ha : a < n) :
    Anc (update regs n x) a r ↔ Anc regs a r := by
  constructor
  · intro h
    have : Anc regs a r ∧ r < n := by
      induction h with
      | refl => exact ⟨.refl, ha⟩
      | @tail b c _ h ih =>
        rw [Function.update_of_ne (by omega)] at h
        exact ⟨.tail ih.1 h, hn b ih.2 c h⟩
    exact this.1
  · intro h
    have : Anc (update regs n x) a r ∧ r < n := by
      induction h with
      | refl => exact ⟨.refl, ha⟩
      | @tail b c _ h ih =>
        refine ⟨.tail ih.1 ?_, hn b ih.2 c h⟩
        rw [Function.update_of_ne (by omega)]; exact h
    exact this.1

variable {P : Patch} {s : St} {cs : List Comp} {F : Finset Nat}

theorem inv_tour_visited (h : Inv P s cs F) (hn : s.nbr ≤ P.nd)
    (hq : s.cnt (P.nb s.cur s.nbr) ≠ 0) :
    Inv P { s with nbr := s.nbr + 1 } cs F :=
  { h with
    nbr_pos := by simp
    nbr_le := by simp; omega
    toured_cur := by
      intro k h1 h2
      simp only at h2 ⊢
      by_cases hk : k = s.nbr
      · subst hk; exact hq
      · exact h.toured_cur k h1 (by omega) }

/-- facts on an unvisited neighbour -/
theorem Inv.unvisited (h : Inv P s cs F) (hn : s.nbr ≤ P.nd)
    (hq : s.cnt (P.nb s.cur s.nbr) = 0) :
    P.nb s.cur s.nbr ∈ P.px ∧ P.adj s.cur (P.nb s.cur s.nbr) ∧ P.nb s.cur s.nbr ∉ F ∧
      P.nb s.cur s.nbr ≠ s.cur ∧ ∀ l, P.nb s.cur s.nbr ∉ s.heap l := by
  have h1 : P.nb s.cur s.nbr ∈ P.px := by
    by_contra hc; exact h.core.cnt_out _ hc hq
  refine ⟨h1, ⟨h.cur_px, h1, s.nbr, h.nbr_pos, hn, rfl⟩, ?_, ?_, ?_⟩
  · intro hF; have := h.core.cnt_F _ hF; omega
  · intro he; rw [he] at hq; exact h.cnt_cur hq
  · intro l hl; exact (h.core.heap_ok l _ hl).2.2.1 hq

theorem inv_tour_push (hP : P.OK) (h : Inv P s cs F) (hn : s.nbr ≤ P.nd)
    (hq : s.cnt (P.nb s.cur s.nbr) = 0) (hg : s.curGray ≤ P.gray (P.nb s.cur s.nbr)) :
    Inv P { s with
        cnt := update s.cnt (P.nb s.cur s.nbr) 1
        heap := update s.heap (P.gray (P.nb s.cur s.nbr))
          (P.nb s.cur s.nbr :: s.heap (P.gray (P.nb s.cur s.nbr)))
        nbr := s.nbr + 1 } cs F := by
  obtain ⟨q1, q2, q3, q4, q5⟩ := h.unvisited hn hq
  generalize hqe : P.nb s.cur s.nbr = q at *
  have hmono : ∀ i, s.cnt i ≠ 0 → update s.cnt q 1 i ≠ 0 := by
    intro i hi; by_cases e : i = q <;> simp [update, e, hi]
  have hc := h.core
  have hheap : ∀ l i, i ∈ update s.heap (P.gray q) (q :: s.heap (P.gray q)) l →
      (i = q ∧ l = P.gray q) ∨ (i ∈ s.heap l ∧ i ≠ q) := by
    intro l i hi
    by_cases e : l = P.gray q
    · subst e
      simp only [Function.update_self, List.mem_cons] at hi
      rcases hi with rfl | hi
      · exact .inl ⟨rfl, rfl⟩
      · exact .inr ⟨hi, by rintro rfl; exact q5 _ hi⟩
    · rw [Function.update_of_ne e] at hi
      exact .inr ⟨hi, by rintro rfl; exact q5 _ hi⟩
  have hheap' : ∀ l i, i ∈ s.heap l → i ∈ update s.heap (P.gray q) (q :: s.heap (P.gray q)) l := by
    intro l i hi
    by_cases e : l = P.gray q
    · subst e; simp [hi]
    · rwa [Function.update_of_ne e]
  refine { h with core := ?_, cnt_cur := ?_, nbr_pos := ?_, nbr_le := ?_, toured_cur := ?_ }
  · dsimp only
    refine { hc with
      heap_ok := ?_, heap_nodup := ?_, heap_low := ?_, heap_conn := ?_, cnt_F := ?_,
      cnt_out := ?_, cnt_le := ?_, vis := ?_, toured_heap := ?_, toured_F := ?_, cs_wait := ?_ }
    · intro l i hi
      rcases hheap l i hi with ⟨rfl, rfl⟩ | ⟨hi, hne⟩
      · exact ⟨q1, rfl, by simp, q3, q4⟩
      · obtain ⟨a1, a2, a3, a4⟩ := hc.heap_ok l i hi
        exact ⟨a1, a2, hmono i a3, a4⟩
    · intro l
      by_cases e : l = P.gray q
      · subst e; simp [q5, hc.heap_nodup]
      · simp only [Function.update_of_ne e]; exact hc.heap_nodup l
    · intro l hl
      rw [Function.update_of_ne (by omega)]; exact hc.heap_low l hl
    · intro l i hi
      rcases hheap l i hi with ⟨rfl, rfl⟩ | ⟨hi, hne⟩
      · exact LConn.edge (hP.adj_symm _ _ q2) (le_refl _) (by rw [h.cur_gray]; exact hg)
      · exact hc.heap_conn l i hi
    · intro i hi
      have : i ≠ q := by rintro rfl; exact q3 hi
      simp only [Function.update_of_ne this]; exact hc.cnt_F i hi
    · intro i hi; exact hmono i (hc.cnt_out i hi)
    · intro i hi
      by_cases e : i = q
      · subst e; simp
      · simp only [Function.update_of_ne e]; exact hc.cnt_le i hi
    · intro i hi hne
      by_cases e : i = q
      · subst e; right; right; simp
      · simp only [Function.update_of_ne e] at hne
        rcases hc.vis i hi hne with h | h | h
        · exact .inl h
        · exact .inr (.inl h)
        · exact .inr (.inr (hheap' _ _ h))
    · intro l i hi k h1 h2
      rcases hheap l i hi with ⟨rfl, rfl⟩ | ⟨hi, hne⟩
      · simp at h2; omega
      · simp only [Function.update_of_ne hne] at h2
        exact hmono _ (hc.toured_heap l i hi k h1 h2)
    · intro i hi k h1 h2; exact hmono _ (hc.toured_F i hi k h1 h2)
    · intro c hcm
      by_cases e : c.gray = P.gray q
      · rw [e]; simp
      · rw [Function.update_of_ne e]; exact hc.cs_wait c hcm
  · exact hmono _ h.cnt_cur
  · simp
  · simp; omega
  · intro k h1 h2
    simp only at h2 ⊢
    by_cases hk : k = s.nbr
    · subst hk; rw [hqe]; simp
    · exact hmono _ (h.toured_cur k h1 (by omega))

theorem inv_tour_descend (hP : P.OK) (h : Inv P s cs F) (hn : s.nbr ≤ P.nd)
    (hq : s.cnt (P.nb s.cur s.nbr) = 0) (hg : P.gray (P.nb s.cur s.nbr) < s.curGray) :
    Inv P { s with
          cnt := update (update s.cnt (P.nb s.cur s.nbr) 1) s.cur (s.nbr + 1)
          heap := update s.heap s.curGray (s.cur :: s.heap s.curGray)
          cur := P.nb s.cur s.nbr
          comps := { region := s.nreg, gray := P.gray (P.nb s.cur s.nbr), size := 0 } :: s.comps
          regs := update s.regs s.nreg
            { gray := P.gray (P.nb s.cur s.nbr), parent := none, size := 0 }
          nreg := s.nreg + 1
          curGray := P.gray (P.nb s.cur s.nbr)
          nbr := 1 }
      ({ region := s.nreg, gray := P.gray (P.nb s.cur s.nbr), size := 0 } :: cs) F := by
  obtain ⟨q1, q2, q3, q4, q5⟩ := h.unvisited hn hq
  generalize hqe : P.nb s.cur s.nbr = q at *
  have hedge : LConn P.adj P.gray s.curGray s.cur q :=
    LConn.edge q2 (by rw [h.cur_gray]) (by omega)
  have hc := h.core.anchor hedge
  have hcF := h.cur_F
  have hcur : ∀ l, s.cur ∉ s.heap l := fun l hl => (h.core.heap_ok l _ hl).2.2.2.2 rfl
  have hcnt : ∀ i, i ≠ q → i ≠ s.cur →
      update (update s.cnt q 1) s.cur (s.nbr + 1) i = s.cnt i := by
    intro i e1 e2; rw [Function.update_of_ne e2, Function.update_of_ne e1]
  have hcntq : update (update s.cnt q 1) s.cur (s.nbr + 1) q = 1 := by
    rw [Function.update_of_ne q4, Function.update_self]
  have hmono : ∀ i, s.cnt i ≠ 0 → update (update s.cnt q 1) s.cur (s.nbr + 1) i ≠ 0 := by
    intro i hi
    by_cases e : i = s.cur
    · simp [e]
    · rw [Function.update_of_ne e]
      by_cases e : i = q <;> simp [update, e, hi]
  have hheap : ∀ l i, i ∈ update s.heap s.curGray (s.cur :: s.heap s.curGray) l →
      (i = s.cur ∧ l = s.curGray) ∨ (i ∈ s.heap l ∧ i ≠ s.cur ∧ i ≠ q) := by
    intro l i hi
    by_cases e : l = s.curGray
    · subst e
      simp only [Function.update_self, List.mem_cons] at hi
      rcases hi with rfl | hi
      · exact .inl ⟨rfl, rfl⟩
      · exact .inr ⟨hi, by rintro rfl; exact hcur _ hi, by rintro rfl; exact q5 _ hi⟩
    · rw [Function.update_of_ne e] at hi
      exact .inr ⟨hi, by rintro rfl; exact hcur _ hi, by rintro rfl; exact q5 _ hi⟩
  have hheap' : ∀ l i, i ∈ s.heap l → i ∈ update s.heap s.curGray (s.cur :: s.heap s.curGray) l := by
    intro l i hi
    by_cases e : l = s.curGray
    · subst e; simp [hi]
    · rwa [Function.update_of_ne e]
  have hn' : ∀ a < s.nreg, ∀ b, (s.regs a).parent = some b → b < s.nreg :=
    fun a ha b hb => (hc.reg_parent a ha b hb).1
  have hregs : ∀ r < s.nreg, update s.regs s.nreg
      { gray := P.gray q, parent := none, size := 0 } r = s.regs r := by
    intro r hr; rw [Function.update_of_ne (by omega)]
  have hanc : ∀ i ∈ F, ∀ r, Anc (update s.regs s.nreg
      { gray := P.gray q, parent := none, size := 0 }) (s.lab i) r ↔ Anc s.regs (s.lab i) r :=
    fun i hi r => Anc.fresh hn' (hc.lab_ok i hi).1
  have hnone : ∀ i ∈ F, ¬ Anc s.regs (s.lab i) s.nreg := by
    intro i hi hr; exact absurd (hc.anc_lt hi hr) (by omega)
  have hbelow : ∀ r, below (update s.regs s.nreg
      { gray := P.gray q, parent := none, size := 0 }) s.lab F r = below s.regs s.lab F r := by
    intro r; ext i; simp only [mem_below]
    constructor
    · rintro ⟨h1, h2⟩; exact ⟨h1, (hanc i h1 r).1 h2⟩
    · rintro ⟨h1, h2⟩; exact ⟨h1, (hanc i h1 r).2 h2⟩
  refine { comps := ?_, core := ?_, cur_px := q1, cur_gray := rfl, cur_F := q3, cnt_cur := ?_,
           nbr_pos := by simp, nbr_le := by simp, toured_cur := ?_ }
  · simp [h.comps]
  · dsimp only
    constructor
    case F_px => exact hc.F_px
    case heap_ok =>
      intro l i hi
      rcases hheap l i hi with ⟨rfl, rfl⟩ | ⟨hi, hne, hne'⟩
      · exact ⟨h.cur_px, h.cur_gray, by simp, hcF, fun e => q4 e.symm⟩
      · obtain ⟨a1, a2, a3, a4, a5⟩ := hc.heap_ok l i hi
        exact ⟨a1, a2, hmono i a3, a4, hne'⟩
    case heap_nodup =>
      intro l
      by_cases e : l = s.curGray
      · subst e; simp [hcur, hc.heap_nodup]
      · simp only [Function.update_of_ne e]; exact hc.heap_nodup l
    case heap_low =>
      intro l hl
      rw [Function.update_of_ne (by omega)]; exact hc.heap_low l (by omega)
    case heap_conn =>
      intro l i hi
      rcases hheap l i hi with ⟨rfl, rfl⟩ | ⟨hi, hne⟩
      · exact hedge
      · exact hc.heap_conn l i hi
    case cnt_F =>
      intro i hi
      rw [hcnt i (by rintro rfl; exact q3 hi) (by rintro rfl; exact hcF hi)]
      exact hc.cnt_F i hi
    case cnt_out => intro i hi; exact hmono i (hc.cnt_out i hi)
    case cnt_le =>
      intro i hi
      by_cases e : i = s.cur
      · rw [e]; simp; exact hn
      · by_cases e' : i = q
        · rw [e', hcntq]; omega
        · rw [hcnt i e' e]; exact hc.cnt_le i hi
    case vis =>
      intro i hi hne
      by_cases e' : i = q
      · exact .inr (.inl e')
      · by_cases e : i = s.cur
        · subst e; right; right; simp [h.cur_gray]
        · simp only [hcnt i e' e] at hne
          rcases hc.vis i hi hne with h | h | h
          · exact .inl h
          · exact absurd h e
          · exact .inr (.inr (hheap' _ _ h))
    case toured_heap =>
      intro l i hi k h1 h2
      rcases hheap l i hi with ⟨rfl, rfl⟩ | ⟨hi, hne, hne'⟩
      · simp only [Function.update_self] at h2
        by_cases hk : k = s.nbr
        · subst hk; simp only [hqe, hcntq]; simp
        · exact hmono _ (h.toured_cur k h1 (by omega))
      · simp only [hcnt i hne' hne] at h2
        exact hmono _ (hc.toured_heap l i hi k h1 h2)
    case toured_F => intro i hi k h1 h2; exact hmono _ (hc.toured_F i hi k h1 h2)
    case reg_parent =>
      intro r hr r' hr'
      by_cases e : r = s.nreg
      · subst e; simp at hr'
      · have hlt : r < s.nreg := by omega
        simp only [hregs r hlt] at hr' ⊢
        obtain ⟨b1, b2⟩ := hc.reg_parent r hlt r' hr'
        rw [hregs r' b1]; exact ⟨by omega, b2⟩
    case lab_ok =>
      intro i hi
      obtain ⟨b1, b2⟩ := hc.lab_ok i hi
      simp only [hregs _ b1]; exact ⟨by omega, b2⟩
    case cs_sorted =>
      rw [List.pairwise_cons]
      refine ⟨?_, hc.cs_sorted⟩
      intro c hcm; have := hc.gray_ge hcm; simp only; omega
    case cs_reg =>
      intro c hcm
      rcases List.mem_cons.1 hcm with rfl | hcm
      · simp only [Function.update_self]
        exact ⟨by omega, trivial, hP.gray_lt q q1, trivial⟩
      · obtain ⟨b1, b2, b3, b4⟩ := hc.cs_reg c hcm
        simp only [hregs _ b1]; exact ⟨by omega, b2, b3, b4⟩
    case cs_img =>
      intro c hcm
      rcases List.mem_cons.1 hcm with rfl | hcm
      · exact ⟨q, q1, rfl⟩
      · exact hc.cs_img c hcm
    case root_cs =>
      intro r hr hpar
      by_cases e : r = s.nreg
      · subst e; exact ⟨_, List.mem_cons_self, rfl⟩
      · have hlt : r < s.nreg := by omega
        simp only [hregs r hlt] at hpar
        obtain ⟨c, hcm, hr⟩ := hc.root_cs r hlt hpar
        exact ⟨c, List.mem_cons_of_mem _ hcm, hr⟩
    case cs_top => exact ⟨_, _, rfl, rfl⟩
    case cs_wait =>
      intro c hcm
      simp only [List.tail_cons] at hcm ⊢
      obtain ⟨c0, rest, hcs, hm⟩ := hc.cs_top
      subst hcs
      rcases List.mem_cons.1 hcm with rfl | hcm
      · rw [hm]; simp
      · have := hc.cs_wait c (by simpa using hcm)
        by_cases e : c.gray = s.curGray
        · rw [e]; simp
        · rw [Function.update_of_ne e]; exact this
    case cs_conn =>
      intro c hcm i hi hr
      simp only [hanc i hi] at hr
      rcases List.mem_cons.1 hcm with rfl | hcm
      · exact absurd hr (hnone i hi)
      · exact hc.cs_conn c hcm i hi hr
    case cs_closed =>
      intro c hcm i hi hr j hj
      simp only [hanc i hi] at hr
      rcases List.mem_cons.1 hcm with rfl | hcm
      · exact absurd hr (hnone i hi)
      · rcases hc.cs_closed c hcm i hi hr j hj with ⟨h1, h2⟩ | h1
        · exact .inl ⟨h1, by simp only [hanc j h1]; exact h2⟩
        · exact .inr h1
    case cs_size =>
      intro c hcm
      simp only [hbelow]
      rcases List.mem_cons.1 hcm with rfl | hcm
      · symm; rw [Finset.card_eq_zero, Finset.eq_empty_iff_forall_notMem]
        intro i hi; rw [mem_below] at hi; exact hnone i hi.1 hi.2
      · exact hc.cs_size c hcm
    case closed =>
      intro r hr hpar
      by_cases e : r = s.nreg
      · subst e; simp at hpar
      · have hlt : r < s.nreg := by omega
        simp only [hregs r hlt] at hpar
        have hcl := hc.closed r hlt hpar
        refine ⟨?_, ?_, hcl.own, ?_⟩
        · intro i hi hr j hj hgj
          simp only [hanc i hi] at hr
          rw [hregs r hlt] at hgj
          obtain ⟨b1, b2⟩ := hcl.closed i hi hr j hj hgj
          exact ⟨b1, (hanc j b1 r).2 b2⟩
        · intro i hi hr j hj hr'
          rw [hregs r hlt]
          exact hcl.conn i hi ((hanc i hi r).1 hr) j hj ((hanc j hj r).1 hr')
        · rw [hregs r hlt, hbelow]; exact hcl.size
  · simp only [hcntq]; simp
  · intro k h1 h2; simp only at h2; omega

end Verif.Flood
