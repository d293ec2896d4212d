import Verif.Proof.FloodFinish
import Mathlib.Algebra.BigOperators.Group.Finset.Basic
import Mathlib.Algebra.Order.BigOperators.Group.Finset
import Mathlib.Algebra.Module.Defs

/-!
# Flooding: one step, whole runs, final state
-/

namespace Verif.Flood

open Function (update)
open Verif.Spec (LConn IsComponentTree)
open Relation (ReflTransGen)
open scoped BigOperators

variable {P : Patch} {s : St} {cs : List Comp} {F : Finset Nat}

/-- Steps performed so far, computed from the state: per pixel the number of directions already
toured, plus one for every finished pixel. -/
def work (P : Patch) (s : St) (F : Finset Nat) : Nat :=
  ∑ i ∈ P.px, (update s.cnt s.cur s.nbr i - 1) + F.card

theorem sum_bump {px : Finset Nat} {f g : Nat → Nat} {x : Nat} (hx : x ∈ px)
    (h : ∀ i ∈ px, i ≠ x → g i = f i) (hgx : g x = f x + 1) :
    ∑ i ∈ px, g i = ∑ i ∈ px, f i + 1 := by
  have h1 : ∑ i ∈ px.erase x, g i = ∑ i ∈ px.erase x, f i :=
    Finset.sum_congr rfl (fun i hi => h i (Finset.mem_of_mem_erase hi) (Finset.ne_of_mem_erase hi))
  have h2 := Finset.add_sum_erase px g hx
  have h3 := Finset.add_sum_erase px f hx
  omega

/-- The state in which the loop stops. -/
structure Final (P : Patch) (s : St) (c : Comp) : Prop where
  comps : s.comps = [c, sent]
  heap : ∀ l, s.heap l = []
  core : Core P s.cnt s.lab s.heap [c] s.regs s.nreg P.px (fun _ => False) s.cur s.curGray
  all : ∀ r < s.nreg, Closed P s.lab s.regs P.px r

/-! ### The scan -/

theorem scan_none {heap : Nat → List Nat} : ∀ {n l : Nat}, scan heap n l = none →
    ∀ k, l ≤ k → k < l + n → heap k = []
  | 0, l, _, k, h1, h2 => by omega
  | n + 1, l, h, k, h1, h2 => by
    simp only [scan] at h
    split at h
    · simp at h
    · rename_i he
      by_cases e : k = l
      · subst e; simpa using he
      · exact scan_none h k (by omega) (by omega)

theorem scan_some {heap : Nat → List Nat} : ∀ {n l v : Nat}, scan heap n l = some v →
    l ≤ v ∧ v < l + n ∧ heap v ≠ [] ∧ ∀ k, l ≤ k → k < v → heap k = []
  | 0, l, v, h => by simp [scan] at h
  | n + 1, l, v, h => by
    simp only [scan] at h
    split at h
    · rename_i he
      obtain rfl := Option.some.inj h
      exact ⟨le_refl _, by omega, he, fun k h1 h2 => by omega⟩
    · rename_i he
      obtain ⟨h1, h2, h3, h4⟩ := scan_some h
      refine ⟨by omega, by omega, h3, fun k h5 h6 => ?_⟩
      by_cases e : k = l
      · subst e; simpa using he
      · exact h4 k (by omega) h6

/-! ### Depth of the stack -/

theorem Core.length_le {P : Patch} {cnt lab : Nat → Nat} {heap : Nat → List Nat} {cs : List Comp}
    {regs : Nat → Reg} {nreg : Nat} {F : Finset Nat} {isCur : Nat → Prop} {a m : Nat}
    (h : Core P cnt lab heap cs regs nreg F isCur a m) :
    cs.length ≤ (P.px.image P.gray).card := by
  have hn : (cs.map Comp.gray).Nodup := by
    rw [List.Nodup, List.pairwise_map]
    exact h.cs_sorted.imp (fun hlt => Nat.ne_of_lt hlt)
  rw [← List.length_map (f := Comp.gray), ← List.toFinset_card_of_nodup hn]
  apply Finset.card_le_card
  intro g hg
  simp only [List.mem_toFinset, List.mem_map] at hg
  obtain ⟨c, hc, rfl⟩ := hg
  obtain ⟨i, hi, h1⟩ := h.cs_img c hc
  exact Finset.mem_image.2 ⟨i, hi, h1⟩

/-! ### One step -/

theorem step_tour (hP : P.OK) (h : Inv P s cs F) (hn : s.nbr ≤ P.nd) :
    match tour P s with
    | .next s' => ∃ cs', Inv P s' cs' F ∧ work P s' F = work P s F + 1
    | .done _ => False
    | .ub => P.cap ≤ (P.px.image P.gray).card := by
  unfold tour
  by_cases hq : s.cnt (P.nb s.cur s.nbr) = 0
  · obtain ⟨q1, q2, q3, q4, q5⟩ := h.unvisited hn hq
    by_cases hg : P.gray (P.nb s.cur s.nbr) < s.curGray
    · have hd := inv_tour_descend hP h hn hq hg
      by_cases hcap : s.comps.length < P.cap
      · simp only [hq, hg, hcap, if_true]
        refine ⟨_, hd, ?_⟩
        simp only [work]
        rw [sum_bump h.cur_px (f := fun i => update s.cnt s.cur s.nbr i - 1)]
        · omega
        · intro i hi hne
          simp only [Function.update_of_ne hne]
          by_cases e : i = P.nb s.cur s.nbr
          · subst e; simp [hq]
          · rw [Function.update_of_ne e, Function.update_of_ne hne, Function.update_of_ne e]
        · simp only [Function.update_self]
          rw [Function.update_of_ne (Ne.symm q4), Function.update_self]
          have := h.nbr_pos; omega
      · simp only [hq, hg, hcap, if_true, if_false]
        have h1 := hd.core.length_le
        have h2 := h.comps
        rw [h2] at hcap
        simp at h1 hcap
        omega
    · simp only [hq, hg, if_true, if_false]
      refine ⟨_, inv_tour_push hP h hn hq (by omega), ?_⟩
      simp only [work]
      rw [sum_bump h.cur_px (f := fun i => update s.cnt s.cur s.nbr i - 1)]
      · omega
      · intro i hi hne
        simp only [Function.update_of_ne hne]
        by_cases e : i = P.nb s.cur s.nbr
        · subst e; simp [hq]
        · rw [Function.update_of_ne e]
      · simp only [Function.update_self]
        have := h.nbr_pos; omega
  · simp only [hq, if_false]
    refine ⟨_, inv_tour_visited h hn hq, ?_⟩
    simp only [work]
    rw [sum_bump h.cur_px (f := fun i => update s.cnt s.cur s.nbr i - 1)]
    · omega
    · intro i hi hne; simp only [Function.update_of_ne hne]
    · simp only [Function.update_self]
      have := h.nbr_pos; omega

theorem setParent_raise {regs : Nat → Reg} {c : Comp} {n l : Nat} (hne : c.region ≠ n) :
    update (setParent regs c.region n) n { gray := l, parent := none, size := 0 }
      = setParent (update regs n { gray := l, parent := none, size := 0 }) c.region n := by
  unfold setParent
  rw [Function.update_of_ne hne, Function.update_comm hne]

/-- everything finished -/
theorem Core.complete {cnt lab : Nat → Nat} {heap : Nat → List Nat} {cs : List Comp}
    {regs : Nat → Reg} {nreg : Nat} {F : Finset Nat} {a m : Nat} (hP : P.OK)
    (h : Core P cnt lab heap cs regs nreg F (fun _ => False) a m) (hh : ∀ l, heap l = [])
    {x : Nat} (hx : x ∈ F) : F = P.px := by
  have hcl : ∀ i ∈ F, ∀ j, P.adj i j → j ∈ F := by
    intro i hi j hj
    obtain ⟨k, k1, k2, k3⟩ := hj.2.2
    have hv := h.toured_F i hi k k1 k2
    rw [k3] at hv
    rcases h.vis j hj.2.1 hv with h1 | h1 | h1
    · exact h1
    · exact absurd h1 id
    · rw [hh] at h1; simp at h1
  have hreach : ∀ i j, ReflTransGen P.adj i j → i ∈ F → j ∈ F := by
    intro i j hij hi
    induction hij with
    | refl => exact hi
    | tail _ h1 ih => exact hcl _ ih _ h1
  have hback : ReflTransGen P.adj x P.start := by
    have := hP.conn x (h.F_px x hx)
    clear hx
    induction this with
    | refl => exact .refl
    | tail _ h1 ih => exact .head (hP.adj_symm _ _ h1) ih
  have hs := hreach _ _ hback hx
  ext i
  exact ⟨h.F_px i, fun hi => hreach _ _ (hP.conn i hi) hs⟩

theorem step_finish (hP : P.OK) (h : Inv P s cs F) (hn : ¬ s.nbr ≤ P.nd) :
    match finish s with
    | .next s' => ∃ cs', Inv P s' cs' (insert s.cur F) ∧ work P s' (insert s.cur F) = work P s F + 1
    | .done s' => (∃ c, Final P s' c) ∧ (P.nd + 1) * P.px.card = work P s F + 1
    | .ub => False := by
  obtain ⟨c, rest, hcs, htop⟩ := h.core.cs_top
  subst hcs
  have hl := h.label hP hn
  have hne : ∃ d rest', rest ++ [sent] = d :: rest' := by
    cases rest with
    | nil => exact ⟨_, _, rfl⟩
    | cons d r => exact ⟨_, _, rfl⟩
  obtain ⟨d, rest', hd⟩ := hne
  have hcomps : s.comps = c :: d :: rest' := by rw [h.comps]; simp [hd]
  have hwork : ∀ (lab : Nat → Nat) (heap : Nat → List Nat) (comps : List Comp) (regs : Nat → Reg)
      (nreg p g : Nat),
      work P ⟨update s.cnt s.cur s.nbr, lab, heap, comps, regs, nreg, p, g, update s.cnt s.cur s.nbr p⟩
        (insert s.cur F) = work P s F + 1 := by
    intro lab heap comps regs nreg p g
    simp only [work]
    rw [Finset.card_insert_of_notMem h.cur_F, Function.update_eq_self, Nat.add_assoc]
  unfold finish
  rw [hcomps]
  simp only
  cases hh : s.heap s.curGray with
  | cons p ps =>
    simp only
    have := hl.pop hP hh
    simp only [List.cons_append, hd] at this
    exact ⟨_, this, hwork _ _ _ _ _ _ _⟩
  | nil =>
    simp only
    have hown : ∃ i ∈ insert s.cur F, update s.lab s.cur c.region i = c.region :=
      ⟨s.cur, by simp, by simp⟩
    generalize hc1 : ({ region := c.region, gray := c.gray, size := c.size + 1 } : Comp) = c1 at *
    have hc1r : c1.region = c.region := by rw [← hc1]
    have hc1m : c1 ∈ c1 :: rest := List.mem_cons_self
    have hz := hl.setSize hc1m c1.size
    rw [hc1r] at hz
    have hszc : (update s.regs c.region { s.regs c.region with size := c1.size } c.region).size
        = c1.size := by simp
    generalize hrg : update s.regs c.region { s.regs c.region with size := c1.size } = regs1 at *
    have hsz0 : (s.regs c.region).gray = c.gray := (h.core.cs_reg c (by simp)).2.1
    have hgc : c1.gray = s.curGray := by rw [← hc1]; exact htop
    have hc1size : c.size + 1 = c1.size := by rw [← hc1]
    rw [hc1size, hrg]
    cases hsc : scan s.heap (256 - s.curGray) (s.curGray + 1) with
    | none =>
      simp only
      have hall : ∀ l, s.heap l = [] := by
        intro l
        by_contra hne
        obtain ⟨i, hi⟩ := List.exists_mem_of_ne_nil _ hne
        have h1 := hz.lvl_ge hi
        obtain ⟨a1, a2, _⟩ := hz.heap_ok l i hi
        have := hP.gray_lt i a1
        by_cases e : l = s.curGray
        · subst e; exact hne hh
        · exact hne (scan_none hsc l (by omega) (by omega))
      have hrest : rest = [] := by
        cases rest with
        | nil => rfl
        | cons e r => exact absurd (hall e.gray) (hz.cs_wait e (by simp))
      subst hrest
      have hF := hz.complete hP hall (x := s.cur) (by simp)
      have hcount : (P.nd + 1) * P.px.card = work P s F + 1 := by
        rw [← hwork s.lab s.heap s.comps s.regs s.nreg s.cur s.curGray, hF]
        simp only [work]
        have : ∑ i ∈ P.px, (update (update s.cnt s.cur s.nbr) s.cur
            (update s.cnt s.cur s.nbr s.cur) i - 1) = ∑ i ∈ P.px, P.nd := by
          apply Finset.sum_congr rfl
          intro i hi
          rw [Function.update_eq_self]
          rw [← hF] at hi
          rw [hz.cnt_F i hi]; omega
        rw [this, Finset.sum_const, smul_eq_mul, Nat.add_mul, Nat.mul_comm]
        omega
      rw [hF] at hz hown
      refine ⟨⟨c1, ?_, hall, hz, ?_⟩, hcount⟩
      · obtain ⟨rfl, rfl⟩ : d = sent ∧ rest' = [] := by
          have := hd; simp at this; exact ⟨this.1.symm, this.2⟩
        rfl
      · intro r hr
        by_cases hp : (regs1 r).parent = none
        · obtain ⟨e, he, hre⟩ := hz.root_cs r hr hp
          have he : e = c1 := by simpa using he
          subst he
          subst hre
          have hgr := (hz.cs_reg e (by simp)).2.1
          refine ⟨?_, ?_, ?_, ?_⟩
          · intro i hi hx j hj _
            rcases hz.cs_closed e (by simp) i hi hx j hj with h1 | ⟨h1, _⟩
            · exact h1
            · exact absurd hj.2.1 h1
          · intro i hi hx j hj hy
            simp only [hgr]
            exact (hz.cs_conn e (by simp) i hi hx).trans
              ((hz.cs_conn e (by simp) j hj hy).symm hP.adj_symm)
          · obtain ⟨i, h1, h2⟩ := hown
            exact ⟨i, h1, by rw [hc1r]; exact h2⟩
          · rw [← hz.cs_size e (by simp), hc1r]; exact hszc
        · exact hz.closed r hr hp
    | some l =>
      simp only
      obtain ⟨l1, l2, l3, l4⟩ := scan_some hsc
      have hlow : ∀ k < l, s.heap k = [] := by
        intro k hk
        by_cases e : k = s.curGray
        · subst e; exact hh
        · by_cases e2 : k < s.curGray
          · exact hz.heap_low k e2
          · exact l4 k (by omega) hk
      have hl256 : l < 257 := by
        obtain ⟨i, hi⟩ := List.exists_mem_of_ne_nil _ l3
        obtain ⟨a1, a2, _⟩ := hz.heap_ok l i hi
        have := hP.gray_lt i a1; omega
      cases hhl : s.heap l with
      | nil => exact absurd hhl l3
      | cons p ps =>
        simp only
        by_cases hld : l < d.gray
        · simp only [hld, if_true, raise]
          have hrestlt : ∀ e ∈ rest, l < e.gray := by
            cases rest with
            | nil => simp
            | cons d0 r =>
              have hd0 : d0 = d := by simp at hd; exact hd.1
              subst hd0
              have hs := hz.cs_sorted
              rw [List.pairwise_cons, List.pairwise_cons] at hs
              intro e he
              rcases List.mem_cons.1 he with rfl | he
              · exact hld
              · have := hs.2.1 e he; omega
          have hI := hz.insertEmpty l3 (by omega) hrestlt hl256
          have hcr : c1.region < s.nreg := (hz.cs_reg c1 hc1m).1
          have hM := hI.merge hP hlow (by obtain ⟨i, h1, h2⟩ := hown; exact ⟨i, h1, by rw [hc1r]; exact h2⟩)
            (by rw [Function.update_of_ne (by omega), hc1r]; exact hszc)
          have hN := hM.pop hP (p := p) (ps := ps) hhl
          simp only [List.cons_append, hd, Nat.zero_add] at hN
          rw [setParent_raise (by omega)]
          exact ⟨_, hN, hwork _ _ _ _ _ _ _⟩
        · simp only [hld, if_false]
          cases rest with
          | nil =>
            have : d = sent := by simp at hd; exact hd.1.symm
            subst this
            exfalso; simp [sent] at hld; omega
          | cons d0 r =>
            obtain ⟨rfl, rfl⟩ : d0 = d ∧ r ++ [sent] = rest' := by simpa using hd
            have hdl : d0.gray = l := by
              have h1 := hz.cs_wait d0 (by simp)
              by_contra hne
              exact h1 (hlow _ (by omega))
            subst hdl
            have hml : mergeLoop d0.gray c1 (d0 :: (r ++ [sent])) regs1 s.nreg
                = some ⟨{ d0 with size := d0.size + c1.size } :: (r ++ [sent]),
                    setParent regs1 c1.region d0.region, s.nreg⟩ := by
              unfold mergeLoop; simp
            rw [hml]
            simp only
            have hM := hz.merge hP hlow
              (by obtain ⟨i, h1, h2⟩ := hown; exact ⟨i, h1, by rw [hc1r]; exact h2⟩)
              (by rw [hc1r]; exact hszc)
            have hN := hM.pop hP (p := p) (ps := ps) hhl
            exact ⟨_, hN, hwork _ _ _ _ _ _ _⟩

/-- One step. -/
theorem step_inv (hP : P.OK) (h : Inv P s cs F) :
    match step P s with
    | .next s' => ∃ cs' F', Inv P s' cs' F' ∧ work P s' F' = work P s F + 1
    | .done s' => (∃ c, Final P s' c) ∧ (P.nd + 1) * P.px.card = work P s F + 1
    | .ub => P.cap ≤ (P.px.image P.gray).card := by
  unfold step
  by_cases hn : s.nbr ≤ P.nd
  · simp only [hn, if_true]
    have := step_tour hP h hn
    revert this
    cases tour P s with
    | next s' => simp only; rintro ⟨cs', h1, h2⟩; exact ⟨cs', F, h1, h2⟩
    | done s' => simp
    | ub => simp
  · simp only [hn, if_false]
    have := step_finish hP h hn
    revert this
    cases finish s with
    | next s' => simp only; rintro ⟨cs', h1, h2⟩; exact ⟨cs', _, h1, h2⟩
    | done s' => simp
    | ub => simp

theorem work_init (P : Patch) : work P (init P) ∅ = 0 := by
  simp only [work, init, Finset.card_empty, Nat.add_zero]
  apply Finset.sum_eq_zero
  intro i hi
  by_cases e : i = P.start
  · subst e; simp
  · simp [Function.update_of_ne e, hi]

/-- Runs from a state satisfying the invariant. -/
theorem run_inv (hP : P.OK) : ∀ (n : Nat) {s : St} {cs : List Comp} {F : Finset Nat}, Inv P s cs F →
    match run P n s with
    | .next s' => ∃ cs' F', Inv P s' cs' F' ∧ work P s' F' = work P s F + n
    | .done s' => (∃ c, Final P s' c) ∧ (P.nd + 1) * P.px.card ≤ work P s F + n
    | .ub => P.cap ≤ (P.px.image P.gray).card
  | 0, s, cs, F, h => ⟨cs, F, h, rfl⟩
  | n + 1, s, cs, F, h => by
    have h1 := step_inv hP h
    simp only [run]
    revert h1
    cases step P s with
    | next s' =>
      simp only
      rintro ⟨cs', F', h2, h3⟩
      have h4 := run_inv hP n h2
      revert h4
      cases run P n s' with
      | next s'' =>
        simp only
        rintro ⟨cs'', F'', h5, h6⟩
        exact ⟨cs'', F'', h5, by omega⟩
      | done s'' => simp only; rintro ⟨h5, h6⟩; exact ⟨h5, by omega⟩
      | ub => simp
    | done s' => simp only; rintro ⟨h2, h3⟩; exact ⟨h2, by omega⟩
    | ub => simp

/-- While the loop has not stopped, fewer than `(nd+1)·|px|` steps were made. -/
theorem Inv.work_lt (h : Inv P s cs F) : work P s F < (P.nd + 1) * P.px.card := by
  have hc := h.core
  have hFc : F.card + 1 ≤ P.px.card := by
    rw [← Finset.card_insert_of_notMem h.cur_F]
    apply Finset.card_le_card
    intro i hi
    rcases Finset.mem_insert.1 hi with rfl | hi
    · exact h.cur_px
    · exact hc.F_px i hi
  have hs : ∑ i ∈ P.px, (update s.cnt s.cur s.nbr i - 1) ≤ ∑ i ∈ P.px, P.nd := by
    apply Finset.sum_le_sum
    intro i hi
    by_cases e : i = s.cur
    · subst e; have := h.nbr_le; simp; omega
    · rw [Function.update_of_ne e]; have := hc.cnt_le i hi; omega
  rw [Finset.sum_const, smul_eq_mul] at hs
  simp only [work]
  rw [Nat.add_mul, Nat.mul_comm P.nd]
  omega

/-! ### The final tree -/

theorem Final.isTree {c : Comp} (h : Final P s c) :
    IsComponentTree P.adj P.gray P.px (treeOf s) where
  lab_reg := fun p hp => (h.core.lab_ok p hp).1
  lab_gray := fun p hp => (h.core.lab_ok p hp).2
  reg_lab := fun r hr => (h.all r hr).own
  parent_reg := h.core.reg_parent
  comp := by
    intro r hr p hp hu q hq
    have hcl := h.all r hr
    constructor
    · intro hv; exact hcl.conn p hp hu q hq hv
    · intro hc
      have : q ∈ P.px ∧ (treeOf s).Under r q := by
        clear hq
        induction hc with
        | refl => exact ⟨hp, hu⟩
        | tail _ h1 ih => exact hcl.closed _ ih.1 ih.2 _ h1.1 h1.2.2
      exact this.2
  size_eq := by
    intro r hr t ht
    have hcl := h.all r hr
    have : t = below s.regs s.lab P.px r := by
      ext i; rw [ht, mem_below]; rfl
    rw [this]; exact hcl.size

end Verif.Flood
