import Verif.Proof.FloodTour
import Mathlib.Data.Finset.Lattice.Fold
import Mathlib.Data.List.Pairwise

/-!
# Flooding: finishing a pixel preserves the invariant
-/

namespace Verif.Flood

open Function (update)
open Verif.Spec (LConn)
open Relation (ReflTransGen)

theorem Anc.total {regs : Nat → Reg} {a b c : Nat} (h1 : Anc regs a b) (h2 : Anc regs a c) :
    Anc regs b c ∨ Anc regs c b :=
  ReflTransGen.total_of_right_unique (fun x y z hy hz => by
    simp only [hy] at hz; exact Option.some.inj hz) h1 h2

theorem Anc.root_unique {regs : Nat → Reg} {a b c : Nat} (h1 : Anc regs a b) (h2 : Anc regs a c)
    (hb : (regs b).parent = none) (hc : (regs c).parent = none) : b = c := by
  rcases Anc.total h1 h2 with h | h
  · exact ((Anc.root hb).1 h).symm
  · exact (Anc.root hc).1 h

section
variable {P : Patch} {cnt lab : Nat → Nat} {heap : Nat → List Nat} {cs : List Comp}
  {regs : Nat → Reg} {nreg : Nat} {F : Finset Nat} {isCur : Nat → Prop} {a m : Nat}

theorem Core.has_root (h : Core P cnt lab heap cs regs nreg F isCur a m) {r : Nat} (hr : r < nreg) :
    ∃ c ∈ cs, Anc regs r c.region := by
  let M := (Finset.range nreg).sup (fun x => (regs x).gray)
  have hM : ∀ x < nreg, (regs x).gray ≤ M := fun x hx =>
    Finset.le_sup (f := fun x => (regs x).gray) (Finset.mem_range.2 hx)
  generalize hk : M - (regs r).gray = k
  induction k using Nat.strong_induction_on generalizing r with
  | _ k ih =>
    cases hp : (regs r).parent with
    | none =>
      obtain ⟨c, hc, rfl⟩ := h.root_cs r hr hp
      exact ⟨c, hc, .refl⟩
    | some r' =>
      obtain ⟨h1, h2⟩ := h.reg_parent r hr r' hp
      have := hM r' h1
      obtain ⟨c, hc, h3⟩ := ih (M - (regs r').gray) (by omega) h1 rfl
      exact ⟨c, hc, .head hp h3⟩

theorem Core.comp_inj (h : Core P cnt lab heap cs regs nreg F isCur a m) {c d : Comp}
    (hc : c ∈ cs) (hd : d ∈ cs) (he : c.region = d.region) : c = d := by
  have h1 := (h.cs_reg c hc).2.1
  have h2 := (h.cs_reg d hd).2.1
  rw [he, h2] at h1
  by_contra hne
  have h3 : cs.Pairwise (fun x y => x.gray ≠ y.gray) := h.cs_sorted.imp (fun hlt => Nat.ne_of_lt hlt)
  have : Std.Symm (fun x y : Comp => x.gray ≠ y.gray) := ⟨fun _ _ h => h.symm⟩
  exact (h3.forall hc hd hne) h1.symm

end

/-! ### Labelling the current pixel -/

theorem Inv.label {P : Patch} {s : St} {c : Comp} {rest : List Comp} {F : Finset Nat}
    (hP : P.OK) (h : Inv P s (c :: rest) F) (hn : ¬ s.nbr ≤ P.nd) :
    Core P (update s.cnt s.cur s.nbr) (update s.lab s.cur c.region) s.heap
      ({ c with size := c.size + 1 } :: rest) s.regs s.nreg (insert s.cur F) (fun _ => False)
      s.cur s.curGray := by
  have hc := h.core
  have hcF := h.cur_F
  have hnbr : s.nbr = P.nd + 1 := by have := h.nbr_le; omega
  have hcm : c ∈ c :: rest := List.mem_cons_self
  obtain ⟨cr1, cr2, cr3, cr4⟩ := hc.cs_reg c hcm
  have htop : c.gray = s.curGray := by
    obtain ⟨c', r', h1, h2⟩ := hc.cs_top
    have := (List.cons.inj h1).1
    rw [this]; exact h2
  have hsort := hc.cs_sorted
  rw [List.pairwise_cons] at hsort
  have hcur : ∀ l, s.cur ∉ s.heap l := fun l hl => (hc.heap_ok l _ hl).2.2.2.2 rfl
  have hne : ∀ i ∈ F, i ≠ s.cur := by rintro i hi rfl; exact hcF hi
  have hlab : ∀ i ∈ F, update s.lab s.cur c.region i = s.lab i := fun i hi =>
    Function.update_of_ne (hne i hi) _ _
  have hlabc : update s.lab s.cur c.region s.cur = c.region := Function.update_self _ _ _
  have hcnt : ∀ i, i ≠ s.cur → update s.cnt s.cur s.nbr i = s.cnt i := fun i e =>
    Function.update_of_ne e _ _
  have hmono : ∀ i, s.cnt i ≠ 0 → update s.cnt s.cur s.nbr i ≠ 0 := by
    intro i hi
    by_cases e : i = s.cur
    · rw [e, Function.update_self]; omega
    · rwa [hcnt i e]
  -- pixels finished earlier and adjacent to the current one belong to the top component
  have hadj : ∀ j ∈ F, P.adj s.cur j → Anc s.regs (s.lab j) c.region := by
    intro j hj hadj
    obtain ⟨e, he, hanc⟩ := hc.has_root (hc.lab_ok j hj).1
    rcases hc.cs_closed e he j hj hanc s.cur (hP.adj_symm _ _ hadj) with h1 | ⟨_, h2⟩
    · exact absurd h1.1 hcF
    · rcases List.mem_cons.1 he with rfl | he
      · exact hanc
      · have := hsort.1 e he
        have := h.cur_gray
        omega
  have hbelow : ∀ r, r ≠ c.region →
      below s.regs (update s.lab s.cur c.region) (insert s.cur F) r = below s.regs s.lab F r := by
    intro r hr; ext i; simp only [mem_below, Finset.mem_insert]
    constructor
    · rintro ⟨rfl | h1, h2⟩
      · rw [hlabc, Anc.root cr4] at h2; exact absurd h2 hr
      · rw [hlab i h1] at h2; exact ⟨h1, h2⟩
    · rintro ⟨h1, h2⟩; exact ⟨.inr h1, by rwa [hlab i h1]⟩
  -- members of the stack: the new list has the same regions and grays
  have hmem : ∀ e ∈ ({ c with size := c.size + 1 } :: rest : List Comp),
      ∃ e' ∈ c :: rest, e'.region = e.region ∧ e'.gray = e.gray := by
    intro e he
    rcases List.mem_cons.1 he with rfl | he
    · exact ⟨c, hcm, rfl, rfl⟩
    · exact ⟨e, List.mem_cons_of_mem _ he, rfl, rfl⟩
  have hregtop : ∀ e ∈ c :: rest, e.region = c.region → e = c := fun e he h1 => hc.comp_inj he hcm h1
  constructor
  case F_px =>
    intro i hi
    rcases Finset.mem_insert.1 hi with rfl | hi
    · exact h.cur_px
    · exact hc.F_px i hi
  case heap_ok =>
    intro l i hi
    obtain ⟨a1, a2, a3, a4, a5⟩ := hc.heap_ok l i hi
    exact ⟨a1, a2, hmono i a3, by simp [a4, a5], by simp⟩
  case heap_nodup => exact hc.heap_nodup
  case heap_low => exact hc.heap_low
  case heap_conn => exact hc.heap_conn
  case cnt_F =>
    intro i hi
    rcases Finset.mem_insert.1 hi with rfl | hi
    · rw [Function.update_self]; exact hnbr
    · rw [hcnt i (hne i hi)]; exact hc.cnt_F i hi
  case cnt_out => intro i hi; exact hmono i (hc.cnt_out i hi)
  case cnt_le =>
    intro i hi
    by_cases e : i = s.cur
    · rw [e, Function.update_self]; omega
    · rw [hcnt i e]; exact hc.cnt_le i hi
  case vis =>
    intro i hi h0
    by_cases e : i = s.cur
    · exact .inl (by simp [e])
    · rw [hcnt i e] at h0
      rcases hc.vis i hi h0 with h1 | h1 | h1
      · exact .inl (by simp [h1])
      · exact absurd h1 e
      · exact .inr (.inr h1)
  case toured_heap =>
    intro l i hi k h1 h2
    have e : i ≠ s.cur := by rintro rfl; exact hcur _ hi
    rw [hcnt i e] at h2
    exact hmono _ (hc.toured_heap l i hi k h1 h2)
  case toured_F =>
    intro i hi k h1 h2
    rcases Finset.mem_insert.1 hi with rfl | hi
    · exact hmono _ (h.toured_cur k h1 (by omega))
    · exact hmono _ (hc.toured_F i hi k h1 h2)
  case reg_parent => exact hc.reg_parent
  case lab_ok =>
    intro i hi
    rcases Finset.mem_insert.1 hi with rfl | hi
    · rw [hlabc]; exact ⟨cr1, by rw [cr2, htop, h.cur_gray]⟩
    · rw [hlab i hi]; exact hc.lab_ok i hi
  case cs_sorted => rw [List.pairwise_cons]; exact hsort
  case cs_reg =>
    intro e he
    obtain ⟨e', h1, h2, h3⟩ := hmem e he
    rw [← h2, ← h3]; exact hc.cs_reg e' h1
  case cs_img =>
    intro e he
    obtain ⟨e', h1, h2, h3⟩ := hmem e he
    rw [← h3]; exact hc.cs_img e' h1
  case root_cs =>
    intro r hr hp
    obtain ⟨e, he, h1⟩ := hc.root_cs r hr hp
    rcases List.mem_cons.1 he with rfl | he
    · exact ⟨_, List.mem_cons_self, h1⟩
    · exact ⟨e, List.mem_cons_of_mem _ he, h1⟩
  case cs_top => exact ⟨_, _, rfl, htop⟩
  case cs_wait => exact hc.cs_wait
  case cs_conn =>
    intro e he i hi hr
    obtain ⟨e', h1, h2, h3⟩ := hmem e he
    rcases Finset.mem_insert.1 hi with rfl | hi
    · exact .refl
    · rw [hlab i hi, ← h2] at hr
      rw [← h3]; exact hc.cs_conn e' h1 i hi hr
  case cs_closed =>
    intro e he i hi hr j hj
    obtain ⟨e', h1, h2, h3⟩ := hmem e he
    rw [← h2] at hr ⊢
    rw [← h3]
    rcases Finset.mem_insert.1 hi with rfl | hi
    · rw [hlabc, Anc.root cr4] at hr
      have hee := hregtop e' h1 hr
      obtain ⟨k, k1, k2, k3⟩ := hj.2.2
      have hvis := h.toured_cur k k1 (by omega)
      rw [k3] at hvis
      rcases hc.vis j hj.2.1 hvis with h4 | h4 | h4
      · exact .inl ⟨by simp [h4], by rw [hlab j h4, hr]; exact hadj j h4 hj⟩
      · have h4 : j = s.cur := h4
        subst h4; exact .inl ⟨by simp, by rw [hlabc, hr]; exact .refl⟩
      · refine .inr ⟨?_, ?_⟩
        · obtain ⟨_, _, _, a4, a5⟩ := hc.heap_ok _ j h4
          simp [a4, a5]
        · rw [hee, htop]; exact hc.lvl_ge h4
    · rw [hlab i hi] at hr
      rcases hc.cs_closed e' h1 i hi hr j hj with ⟨h4, h5⟩ | ⟨h4, h5⟩
      · exact .inl ⟨by simp [h4], by rwa [hlab j h4]⟩
      · by_cases ej : j = s.cur
        · subst ej
          left
          refine ⟨by simp, ?_⟩
          have : e' = c := by
            rcases List.mem_cons.1 h1 with h6 | h6
            · exact h6
            · have := hsort.1 e' h6; have := h.cur_gray; omega
          rw [hlabc, this]; exact .refl
        · exact .inr ⟨by simp [h4, ej], h5⟩
  case cs_size =>
    intro e he
    rcases List.mem_cons.1 he with rfl | he
    · have : below s.regs (update s.lab s.cur c.region) (insert s.cur F) c.region
          = insert s.cur (below s.regs s.lab F c.region) := by
        ext i; simp only [mem_below, Finset.mem_insert]
        constructor
        · rintro ⟨rfl | h1, h2⟩
          · exact .inl rfl
          · rw [hlab i h1] at h2; exact .inr ⟨h1, h2⟩
        · rintro (rfl | ⟨h1, h2⟩)
          · exact ⟨.inl rfl, by rw [hlabc]; exact .refl⟩
          · exact ⟨.inr h1, by rwa [hlab i h1]⟩
      simp only [this]
      rw [Finset.card_insert_of_notMem (by rw [mem_below]; exact fun hx => hcF hx.1),
        hc.cs_size c hcm]
    · have he' := List.mem_cons_of_mem c he
      rw [hbelow e.region]
      · exact hc.cs_size e he'
      · intro hx
        have := hregtop e he' hx
        have h2 := hsort.1 e he
        rw [this] at h2; omega
  case closed =>
    intro r hr hp
    have hrc : r ≠ c.region := by rintro rfl; exact hp cr4
    have hcl := hc.closed r hr hp
    have hiF : ∀ i ∈ insert s.cur F, Anc s.regs (update s.lab s.cur c.region i) r →
        i ∈ F ∧ Anc s.regs (s.lab i) r := by
      intro i hi hx
      rcases Finset.mem_insert.1 hi with rfl | hi
      · rw [hlabc, Anc.root cr4] at hx; exact absurd hx hrc
      · rw [hlab i hi] at hx; exact ⟨hi, hx⟩
    refine ⟨?_, ?_, ?_, ?_⟩
    · intro i hi hx j hj hg
      obtain ⟨h1, h2⟩ := hiF i hi hx
      obtain ⟨h3, h4⟩ := hcl.closed i h1 h2 j hj hg
      exact ⟨by simp [h3], by rwa [hlab j h3]⟩
    · intro i hi hx j hj hy
      obtain ⟨h1, h2⟩ := hiF i hi hx
      obtain ⟨h3, h4⟩ := hiF j hj hy
      exact hcl.conn i h1 h2 j h3 h4
    · obtain ⟨i, h1, h2⟩ := hcl.own
      exact ⟨i, by simp [h1], by rw [hlab i h1, h2]⟩
    · rw [hbelow r hrc]; exact hcl.size

/-! ### Completing the top component -/

section
variable {P : Patch} {cnt lab : Nat → Nat} {heap : Nat → List Nat} {c d : Comp} {rest : List Comp}
  {regs : Nat → Reg} {nreg : Nat} {F : Finset Nat} {isCur : Nat → Prop} {a m : Nat}

/-- Storing the size in the region of an open component. -/
theorem Core.setSize {cs : List Comp} (h : Core P cnt lab heap cs regs nreg F isCur a m)
    (hc : c ∈ cs) (n : Nat) :
    Core P cnt lab heap cs (update regs c.region { regs c.region with size := n }) nreg F isCur a m := by
  have hpar : ∀ r, (update regs c.region { regs c.region with size := n } r).parent
      = (regs r).parent := by
    intro r; by_cases e : r = c.region
    · subst e; simp
    · rw [Function.update_of_ne e]
  have hgray : ∀ r, (update regs c.region { regs c.region with size := n } r).gray
      = (regs r).gray := by
    intro r; by_cases e : r = c.region
    · subst e; simp
    · rw [Function.update_of_ne e]
  have hanc := Anc.congr hpar
  have hbelow : ∀ r, below (update regs c.region { regs c.region with size := n }) lab F r
      = below regs lab F r := by
    intro r; ext i; simp only [mem_below]; rw [hanc]
  refine { h with
    reg_parent := ?_, lab_ok := ?_, cs_reg := ?_, root_cs := ?_, cs_conn := ?_, cs_closed := ?_,
    cs_size := ?_, closed := ?_ }
  · simpa only [hpar, hgray] using h.reg_parent
  · simpa only [hgray] using h.lab_ok
  · simpa only [hpar, hgray] using h.cs_reg
  · simpa only [hpar] using h.root_cs
  · simpa only [hanc] using h.cs_conn
  · simpa only [hanc] using h.cs_closed
  · simpa only [hbelow] using h.cs_size
  · intro r hr hp
    rw [hpar] at hp
    have hcl := h.closed r hr hp
    refine ⟨?_, ?_, hcl.own, ?_⟩
    · simpa only [hanc, hgray] using hcl.closed
    · simpa only [hanc, hgray] using hcl.conn
    · rw [hbelow, Function.update_of_ne]
      · exact hcl.size
      · rintro rfl; exact hp (h.cs_reg c hc).2.2.2

/-- Inserting an empty component with a fresh region below the top of the stack. -/
theorem Core.insertEmpty (h : Core P cnt lab heap (c :: rest) regs nreg F isCur a m) {l : Nat}
    (hl : heap l ≠ []) (hml : m < l) (hr : ∀ e ∈ rest, l < e.gray) (hl256 : l < 257) :
    Core P cnt lab heap (c :: { region := nreg, gray := l, size := 0 } :: rest)
      (update regs nreg { gray := l, parent := none, size := 0 }) (nreg + 1) F isCur a m := by
  have htop : c.gray = m := by
    obtain ⟨c', r', h1, h2⟩ := h.cs_top
    rw [(List.cons.inj h1).1]; exact h2
  have hn' : ∀ a < nreg, ∀ b, (regs a).parent = some b → b < nreg :=
    fun a ha b hb => (h.reg_parent a ha b hb).1
  generalize hx : ({ gray := l, parent := none, size := 0 } : Reg) = x
  have hregs : ∀ r < nreg, update regs nreg x r = regs r := by
    intro r hr; rw [Function.update_of_ne (by omega)]
  have hanc : ∀ i ∈ F, ∀ r, Anc (update regs nreg x) (lab i) r ↔ Anc regs (lab i) r :=
    fun i hi r => Anc.fresh hn' (h.lab_ok i hi).1
  have hnone : ∀ i ∈ F, ¬ Anc regs (lab i) nreg := by
    intro i hi hr; exact absurd (h.anc_lt hi hr) (by omega)
  have hbelow : ∀ r, below (update regs nreg x) lab F r = below regs lab F r := by
    intro r; ext i; simp only [mem_below]
    constructor
    · rintro ⟨h1, h2⟩; exact ⟨h1, (hanc i h1 r).1 h2⟩
    · rintro ⟨h1, h2⟩; exact ⟨h1, (hanc i h1 r).2 h2⟩
  have hself : update regs nreg x nreg = x := Function.update_self _ _ _
  have hmem : ∀ e ∈ (c :: { region := nreg, gray := l, size := 0 } :: rest : List Comp),
      e = { region := nreg, gray := l, size := 0 } ∨ e ∈ c :: rest := by
    intro e he; simp only [List.mem_cons] at he ⊢; tauto
  have hsort := h.cs_sorted
  rw [List.pairwise_cons] at hsort
  refine { h with
    reg_parent := ?_, lab_ok := ?_, cs_sorted := ?_, cs_reg := ?_, cs_img := ?_, root_cs := ?_,
    cs_top := ⟨_, _, rfl, htop⟩, cs_wait := ?_,
    cs_conn := ?_, cs_closed := ?_, cs_size := ?_, closed := ?_ }
  · intro r hr r' hr'
    by_cases e : r = nreg
    · subst e; rw [hself, ← hx] at hr'; simp at hr'
    · have hlt : r < nreg := by omega
      rw [hregs r hlt] at hr' ⊢
      obtain ⟨b1, b2⟩ := h.reg_parent r hlt r' hr'
      rw [hregs r' b1]; exact ⟨by omega, b2⟩
  · intro i hi
    obtain ⟨b1, b2⟩ := h.lab_ok i hi
    rw [hregs _ b1]; exact ⟨by omega, b2⟩
  · rw [List.pairwise_cons, List.pairwise_cons]
    refine ⟨?_, hr, hsort.2⟩
    intro e he
    rcases List.mem_cons.1 he with rfl | he
    · simp only; omega
    · exact hsort.1 e he
  · intro e he
    rcases hmem e he with rfl | he
    · simp only [hself]; rw [← hx]; exact ⟨by omega, rfl, hl256, rfl⟩
    · obtain ⟨b1, b2, b3, b4⟩ := h.cs_reg e he
      rw [hregs _ b1]; exact ⟨by omega, b2, b3, b4⟩
  · intro e he
    rcases hmem e he with rfl | he
    · obtain ⟨i, hi⟩ := List.exists_mem_of_ne_nil _ hl
      obtain ⟨a1, a2, _⟩ := h.heap_ok l i hi
      exact ⟨i, a1, a2⟩
    · exact h.cs_img e he
  · intro r hr hp
    by_cases e : r = nreg
    · subst e; exact ⟨{ region := r, gray := l, size := 0 }, by simp, rfl⟩
    · have hlt : r < nreg := by omega
      rw [hregs r hlt] at hp
      obtain ⟨e, he, h1⟩ := h.root_cs r hlt hp
      exact ⟨e, by simp only [List.mem_cons] at he ⊢; tauto, h1⟩
  · intro e he
    simp only [List.tail_cons] at he
    rcases List.mem_cons.1 he with rfl | he
    · exact hl
    · exact h.cs_wait e (by simpa using he)
  · intro e he i hi hr
    rw [hanc i hi] at hr
    rcases hmem e he with rfl | he
    · exact absurd hr (hnone i hi)
    · exact h.cs_conn e he i hi hr
  · intro e he i hi hr j hj
    rw [hanc i hi] at hr
    rcases hmem e he with rfl | he
    · exact absurd hr (hnone i hi)
    · rcases h.cs_closed e he i hi hr j hj with ⟨h1, h2⟩ | h1
      · exact .inl ⟨h1, by rw [hanc j h1]; exact h2⟩
      · exact .inr h1
  · intro e he
    rw [hbelow]
    rcases hmem e he with rfl | he
    · symm; rw [Finset.card_eq_zero, Finset.eq_empty_iff_forall_notMem]
      intro i hi; rw [mem_below] at hi; exact hnone i hi.1 hi.2
    · exact h.cs_size e he
  · intro r hr hp
    by_cases e : r = nreg
    · subst e; rw [hself, ← hx] at hp; simp at hp
    · have hlt : r < nreg := by omega
      rw [hregs r hlt] at hp
      have hcl := h.closed r hlt hp
      refine ⟨?_, ?_, hcl.own, ?_⟩
      · intro i hi hr j hj hgj
        rw [hanc i hi] at hr
        rw [hregs r hlt] at hgj
        obtain ⟨b1, b2⟩ := hcl.closed i hi hr j hj hgj
        exact ⟨b1, (hanc j b1 r).2 b2⟩
      · intro i hi hr j hj hr'
        rw [hregs r hlt]
        exact hcl.conn i hi ((hanc i hi r).1 hr) j hj ((hanc j hj r).1 hr')
      · rw [hregs r hlt, hbelow]; exact hcl.size

/-- Completing the top component and merging it into the one below it, when the next waiting
pixel is at that component's level. -/
theorem Core.merge (hP : P.OK)
    (h : Core P cnt lab heap (c :: d :: rest) regs nreg F (fun _ => False) a m)
    (hlow : ∀ l < d.gray, heap l = []) (hown : ∃ i ∈ F, lab i = c.region)
    (hsz : (regs c.region).size = c.size) :
    Core P cnt lab heap ({ d with size := d.size + c.size } :: rest)
      (setParent regs c.region d.region) nreg F (fun _ => False) a d.gray := by
  have hcm : c ∈ c :: d :: rest := by simp
  have hdm : d ∈ c :: d :: rest := by simp
  obtain ⟨cr1, cr2, cr3, cr4⟩ := h.cs_reg c hcm
  obtain ⟨dr1, dr2, dr3, dr4⟩ := h.cs_reg d hdm
  have hsort := h.cs_sorted
  rw [List.pairwise_cons, List.pairwise_cons] at hsort
  have hcd : c.gray < d.gray := hsort.1 d (by simp)
  have hne : d.region ≠ c.region := by
    intro e
    have := h.comp_inj hdm hcm e
    rw [this] at hcd; omega
  have hreg : ∀ r, r ≠ c.region → setParent regs c.region d.region r = regs r := by
    intro r hr; simp only [setParent]; rw [Function.update_of_ne hr]
  have hgray : ∀ r, (setParent regs c.region d.region r).gray = (regs r).gray := by
    intro r; by_cases e : r = c.region
    · subst e; simp [setParent]
    · rw [hreg r e]
  have hpc : (setParent regs c.region d.region c.region).parent = some d.region := by
    simp [setParent]
  have hszall : ∀ r, (setParent regs c.region d.region r).size = (regs r).size := by
    intro r; by_cases e : r = c.region
    · subst e; simp [setParent]
    · rw [hreg r e]
  have hn' : ∀ a < nreg, ∀ b, (regs a).parent = some b → b < nreg :=
    fun a ha b hb => (h.reg_parent a ha b hb).1
  have hanc : ∀ i ∈ F, ∀ r, Anc (setParent regs c.region d.region) (lab i) r ↔
      Anc regs (lab i) r ∨ (Anc regs (lab i) c.region ∧ r = d.region) := by
    intro i hi r
    exact Anc.link hn' cr4 (fun a _ hac => by rw [hreg a hac]) hpc (by rw [hreg _ hne]; exact dr4)
      (h.lab_ok i hi).1
  have hanc' : ∀ i ∈ F, ∀ r, r ≠ d.region →
      (Anc (setParent regs c.region d.region) (lab i) r ↔ Anc regs (lab i) r) := by
    intro i hi r hr; rw [hanc i hi]; tauto
  have hbelow : ∀ r, r ≠ d.region →
      below (setParent regs c.region d.region) lab F r = below regs lab F r := by
    intro r hr; ext i; simp only [mem_below]
    constructor
    · rintro ⟨h1, h2⟩; exact ⟨h1, (hanc' i h1 r hr).1 h2⟩
    · rintro ⟨h1, h2⟩; exact ⟨h1, (hanc' i h1 r hr).2 h2⟩
  -- unfinished neighbours of finished pixels wait on the heap
  have hwait : ∀ i ∈ F, ∀ j, P.adj i j → j ∉ F → d.gray ≤ P.gray j := by
    intro i hi j hj hjF
    obtain ⟨k, k1, k2, k3⟩ := hj.2.2
    have hv := h.toured_F i hi k k1 k2
    rw [k3] at hv
    rcases h.vis j hj.2.1 hv with h1 | h1 | h1
    · exact absurd h1 hjF
    · exact absurd h1 id
    · by_contra hlt
      rw [hlow _ (by omega)] at h1; simp at h1
  have hmem : ∀ e ∈ ({ d with size := d.size + c.size } :: rest : List Comp),
      ∃ e' ∈ d :: rest, e'.region = e.region ∧ e'.gray = e.gray := by
    intro e he
    rcases List.mem_cons.1 he with rfl | he
    · exact ⟨d, by simp, rfl, rfl⟩
    · exact ⟨e, List.mem_cons_of_mem _ he, rfl, rfl⟩
  have hmem2 : ∀ e ∈ d :: rest, e ∈ c :: d :: rest := fun e he => List.mem_cons_of_mem _ he
  have hrc : ∀ e ∈ d :: rest, e.region ≠ c.region := by
    intro e he hx
    have := h.comp_inj (hmem2 e he) hcm hx
    have h2 := hsort.1 e he
    rw [this] at h2; omega
  have hrd : ∀ e ∈ rest, e.region ≠ d.region := by
    intro e he hx
    have := h.comp_inj (hmem2 e (List.mem_cons_of_mem _ he)) hdm hx
    have h2 := hsort.2.1 e he
    rw [this] at h2; omega
  refine { h with
    heap_low := hlow, reg_parent := ?_, lab_ok := ?_, cs_sorted := ?_, cs_reg := ?_, cs_img := ?_,
    root_cs := ?_, cs_top := ⟨_, _, rfl, rfl⟩, cs_wait := ?_,
    cs_conn := ?_, cs_closed := ?_, cs_size := ?_, closed := ?_ }
  · intro r hr r' hr'
    rw [hgray, hgray]
    by_cases e : r = c.region
    · subst e; rw [hpc] at hr'
      obtain rfl := Option.some.inj hr'
      exact ⟨dr1, by omega⟩
    · rw [hreg r e] at hr'; exact h.reg_parent r hr r' hr'
  · simpa only [hgray] using h.lab_ok
  · rw [List.pairwise_cons]; exact hsort.2
  · intro e he
    obtain ⟨e', h1, h2, h3⟩ := hmem e he
    rw [← h2, ← h3, hreg _ (hrc e' h1)]; exact h.cs_reg e' (hmem2 e' h1)
  · intro e he
    obtain ⟨e', h1, h2, h3⟩ := hmem e he
    rw [← h3]; exact h.cs_img e' (hmem2 e' h1)
  · intro r hr hp
    have e : r ≠ c.region := by rintro rfl; rw [hpc] at hp; simp at hp
    rw [hreg r e] at hp
    obtain ⟨x, hx, h1⟩ := h.root_cs r hr hp
    rcases List.mem_cons.1 hx with rfl | hx
    · exact absurd h1.symm e
    · rcases List.mem_cons.1 hx with rfl | hx
      · exact ⟨_, List.mem_cons_self, h1⟩
      · exact ⟨x, List.mem_cons_of_mem _ hx, h1⟩
  · intro e he
    simp only [List.tail_cons] at he
    exact h.cs_wait e (by simp [he])
  · intro e he i hi hr
    rcases List.mem_cons.1 he with rfl | he
    · rcases (hanc i hi _).1 hr with h1 | ⟨h1, _⟩
      · exact h.cs_conn d hdm i hi h1
      · exact (h.cs_conn c hcm i hi h1).mono hcd.le
    · rw [hanc' i hi _ (hrd e he)] at hr
      exact h.cs_conn e (by simp [he]) i hi hr
  · intro e he i hi hr j hj
    rcases List.mem_cons.1 he with rfl | he
    · by_cases hjF : j ∈ F
      · left
        refine ⟨hjF, ?_⟩
        simp only [hanc i hi, hanc j hjF] at hr ⊢
        rcases hr with h1 | ⟨h1, _⟩
        · rcases h.cs_closed d hdm i hi h1 j hj with ⟨_, h2⟩ | ⟨h2, _⟩
          · exact .inl h2
          · exact absurd hjF h2
        · rcases h.cs_closed c hcm i hi h1 j hj with ⟨_, h2⟩ | ⟨h2, _⟩
          · exact .inr ⟨h2, trivial⟩
          · exact absurd hjF h2
      · exact .inr ⟨hjF, hwait i hi j hj hjF⟩
    · rw [hanc' i hi _ (hrd e he)] at hr
      rcases h.cs_closed e (by simp [he]) i hi hr j hj with ⟨h1, h2⟩ | h1
      · exact .inl ⟨h1, by rw [hanc' j h1 _ (hrd e he)]; exact h2⟩
      · exact .inr h1
  · intro e he
    rcases List.mem_cons.1 he with rfl | he
    · have : below (setParent regs c.region d.region) lab F d.region
          = below regs lab F d.region ∪ below regs lab F c.region := by
        ext i; simp only [mem_below, Finset.mem_union]
        constructor
        · rintro ⟨h1, h2⟩
          rcases (hanc i h1 _).1 h2 with h3 | ⟨h3, _⟩
          · exact .inl ⟨h1, h3⟩
          · exact .inr ⟨h1, h3⟩
        · rintro (⟨h1, h2⟩ | ⟨h1, h2⟩)
          · exact ⟨h1, (hanc i h1 _).2 (.inl h2)⟩
          · exact ⟨h1, (hanc i h1 _).2 (.inr ⟨h2, rfl⟩)⟩
      simp only [this]
      rw [Finset.card_union_of_disjoint, ← h.cs_size d hdm, ← h.cs_size c hcm]
      rw [Finset.disjoint_left]
      intro i h1 h2
      rw [mem_below] at h1 h2
      exact hne (Anc.root_unique h1.2 h2.2 dr4 cr4)
    · rw [hbelow _ (hrd e he)]; exact h.cs_size e (by simp [he])
  · intro r hr hp
    by_cases e : r = c.region
    · subst e
      refine ⟨?_, ?_, hown, ?_⟩
      · intro i hi hx j hj hg
        rw [hanc' i hi _ hne.symm] at hx
        rw [hgray] at hg
        rcases h.cs_closed c hcm i hi hx j hj with ⟨h1, h2⟩ | ⟨h1, h2⟩
        · exact ⟨h1, by rw [hanc' j h1 _ hne.symm]; exact h2⟩
        · have := hwait i hi j hj h1; omega
      · intro i hi hx j hj hy
        rw [hanc' i hi _ hne.symm] at hx
        rw [hanc' j hj _ hne.symm] at hy
        rw [hgray, cr2]
        exact (h.cs_conn c hcm i hi hx).trans ((h.cs_conn c hcm j hj hy).symm hP.adj_symm)
      · rw [hszall, hbelow _ hne.symm, hsz]; exact h.cs_size c hcm
    · rw [hreg r e] at hp
      have hrd' : r ≠ d.region := by rintro rfl; exact hp dr4
      have hcl := h.closed r hr hp
      refine ⟨?_, ?_, hcl.own, ?_⟩
      · intro i hi hx j hj hg
        rw [hanc' i hi _ hrd'] at hx
        rw [hgray] at hg
        obtain ⟨h1, h2⟩ := hcl.closed i hi hx j hj hg
        exact ⟨h1, by rw [hanc' j h1 _ hrd']; exact h2⟩
      · intro i hi hx j hj hy
        rw [hanc' i hi _ hrd'] at hx
        rw [hanc' j hj _ hrd'] at hy
        rw [hgray]; exact hcl.conn i hi hx j hj hy
      · rw [hszall, hbelow _ hrd']; exact hcl.size

/-- Taking the next waiting pixel. -/
theorem Core.pop {cs : List Comp} (hP : P.OK)
    (h : Core P cnt lab heap cs regs nreg F (fun _ => False) a m) {p : Nat} {ps : List Nat}
    (hp : heap m = p :: ps) :
    Inv P { cnt := cnt, lab := lab, heap := update heap m ps, comps := cs ++ [sent], regs := regs,
            nreg := nreg, cur := p, curGray := m, nbr := cnt p } cs F := by
  have hpm : p ∈ heap m := by rw [hp]; simp
  obtain ⟨p1, p2, p3, p4, _⟩ := h.heap_ok m p hpm
  have hnd := h.heap_nodup m
  rw [hp, List.nodup_cons] at hnd
  have hsub : ∀ l i, i ∈ update heap m ps l → i ∈ heap l ∧ i ≠ p := by
    intro l i hi
    by_cases e : l = m
    · subst e
      rw [Function.update_self] at hi
      exact ⟨by rw [hp]; simp [hi], by rintro rfl; exact hnd.1 hi⟩
    · rw [Function.update_of_ne e] at hi
      refine ⟨hi, ?_⟩
      rintro rfl
      have := (h.heap_ok l i hi).2.1
      omega
  have hsup : ∀ l i, i ∈ heap l → i ≠ p → i ∈ update heap m ps l := by
    intro l i hi hne
    by_cases e : l = m
    · subst e
      rw [hp] at hi
      rw [Function.update_self]
      simpa [hne] using hi
    · rwa [Function.update_of_ne e]
  have hap : LConn P.adj P.gray m a p := (h.heap_conn m p hpm).symm hP.adj_symm
  have h := h.anchor hap
  refine { comps := rfl, core := ?_, cur_px := p1, cur_gray := p2, cur_F := p4, cnt_cur := p3,
           nbr_pos := by simp only; omega, nbr_le := h.cnt_le p p1,
           toured_cur := h.toured_heap m p hpm }
  refine { h with
    heap_ok := ?_, heap_nodup := ?_, heap_low := ?_, heap_conn := ?_, vis := ?_, toured_heap := ?_,
    cs_wait := ?_ }
  · intro l i hi
    obtain ⟨h1, h2⟩ := hsub l i hi
    obtain ⟨a1, a2, a3, a4, _⟩ := h.heap_ok l i h1
    exact ⟨a1, a2, a3, a4, h2⟩
  · intro l
    by_cases e : l = m
    · subst e; simp only [Function.update_self]; exact hnd.2
    · simp only [Function.update_of_ne e]; exact h.heap_nodup l
  · intro l hl
    simp only at hl ⊢
    rw [Function.update_of_ne (by omega)]; exact h.heap_low l hl
  · intro l i hi; exact h.heap_conn l i (hsub l i hi).1
  · intro i hi h0
    by_cases e : i = p
    · exact .inr (.inl e)
    · rcases h.vis i hi h0 with h1 | h1 | h1
      · exact .inl h1
      · exact absurd h1 id
      · exact .inr (.inr (hsup _ _ h1 e))
  · intro l i hi; exact h.toured_heap l i (hsub l i hi).1
  · intro e he
    obtain ⟨c', r', h1, h2⟩ := h.cs_top
    subst h1
    have hs := h.cs_sorted
    rw [List.pairwise_cons] at hs
    have := hs.1 e (by simpa using he)
    simp only
    rw [Function.update_of_ne (by omega)]; exact h.cs_wait e he

end

end Verif.Flood
