import Verif.Proof.OpenCv3Flood

/-!
# The OpenCV 3 detector: the end of a tour, and the whole pass
-/

namespace Verif.OpenCv3

open Function (update)
open Verif.Flood (Patch below mem_below Core Anc)
open Verif.FloodMem (offset Stk offset_lt histOf)
open Verif.OpenCv (IsC Seen below_label below_congr below_fresh below_link below_disjoint scan_255)
open Verif.Spec (LConn)

variable {E : Env} {v : St} {s : Flood.St} {F : Finset Nat} {T : List Trip} {R : Nat → List Nat} {cs : List Flood.Comp}

/-- 1 for a component without a history of its level. -/
def need (H : Nat → Hist) (c : Comp) : Nat := if ownHist H c = none then 1 else 0

theorem need_congr {H H' : Nat → Hist} {c : Comp} (h : ∀ i, c.hist = some i → (H' i).val = (H i).val) : need H' c = need H c := by
  unfold need; rw [ownHist_congr h]

theorem linkHist_val {H : Nat → Hist} {h h2 : Nat} (hne : h ≠ h2) (k : Nat) : (linkHist E H h h2 k).val = (H k).val := by
  obtain ⟨l1, ⟨ks, l2, -⟩, l4⟩ := linkHist_spec (E := E) (H := H) hne
  by_cases e1 : k = h
  · subst e1; rw [l2]
  · by_cases e2 : k = h2
    · subst e2
      rcases l4 with l4 | l4
      · rw [l4]
      · rw [l4.1]
    · rw [l1 k e1 e2]

/-- The top component is merged into the one below it. -/
theorem merge_spec {next : Nat → Nat} {t : TS} {n : Nat} {c d : Comp} {lc ld : List Nat} {S : Set CL}
    (h : FI E false t.hists n t.out R (insert (c, lc) (insert (d, ld) S))) (hcd : c.gray < d.gray) (h256 : d.gray < 256)
    (hS : ∀ x ∈ S, d.gray < x.1.gray) (hn : n + need t.hists d + need t.hists c ≤ E.area)
    (hcs : c.size = lc.length) (hch : lc.head? = some c.head) (hct : lc.getLast? = some c.tail) (hcn : lc.Nodup)
    (hcc : lc.IsChain (fun a b => next a = b))
    (hC : ∀ g', c.gray ≤ g' → g' < d.gray → IsC E.P g' lc.toFinset) (htop : ∃ x ∈ lc, E.P.gray x = c.gray)
    (hds : d.size = ld.length) (hdh : ld ≠ [] → ld.head? = some d.head) (hdt : ld ≠ [] → ld.getLast? = some d.tail)
    (hdn : ld.Nodup) (hdc : ld.IsChain (fun a b => next a = b)) (hdis : ∀ x ∈ lc, x ∉ ld) (hdisS : ∀ x ∈ lc, ∀ y ∈ S, x ∉ y.2)
    (hSc : ∀ y ∈ S, y.2.IsChain (fun a b => next a = b)) :
    ∃ e next' t' n' R', merge E d c next t n = some (e, next', t', n') ∧
      FI E false t'.hists n' t'.out R' (insert (e, ld ++ lc) S) ∧ e.gray = d.gray ∧ ownHist t'.hists e ≠ none ∧
      n' = n + need t.hists d + need t.hists c ∧ (∀ k < n, (t'.hists k).val = (t.hists k).val) ∧ e.size = (ld ++ lc).length ∧
      (ld ++ lc).head? = some e.head ∧ (ld ++ lc).getLast? = some e.tail ∧ (ld ++ lc).IsChain (fun a b => next' a = b) ∧
      ∀ q, q ∉ ld → next' q = next q := by
  have hdS : (d, ld) ∉ S := fun hx => absurd (hS _ hx) (lt_irrefl _)
  have hcS : (c, lc) ∉ S := fun hx => absurd (hS _ hx) (by dsimp only; omega)
  have hcdne : (c, lc) ≠ (d, ld) := by
    intro e
    have := congrArg (fun x : CL => x.1.gray) e
    dsimp only at this
    omega
  -- the history of `d`
  have hdn1 : ownHist t.hists d = none → n < E.area := by
    intro e
    have : need t.hists d = 1 := if_pos e
    omega
  obtain ⟨i, H1, n1, a1, a2, a3, a4, a5⟩ := growHistory_open (next := next) h (l := ld) (.inr (.inl rfl)) h256 hdn1
  have e1 : insert (({ d with hist := some i } : Comp), ld) (insert (c, lc) (insert (d, ld) S) \ {(d, ld)}) =
      insert (c, lc) (insert (({ d with hist := some i } : Comp), ld) S) := by
    rw [Set.insert_comm (c, lc) (d, ld), ins_diff (by
      rintro (e | e)
      · exact hcdne e.symm
      · exact hdS e), Set.insert_comm]
  rw [e1] at a2
  have a4' : n1 = n + need t.hists d := by rw [a4]; unfold need; split <;> rfl
  have hcv : ∀ k, c.hist = some k → (H1 k).val = (t.hists k).val := fun k hk => a5 k (h.lt _ (.inl rfl) k hk).1
  have hoc : ownHist H1 c = ownHist t.hists c := ownHist_congr hcv
  have hcn1 : ownHist H1 c = none → n1 < E.area := by
    intro e
    rw [hoc] at e
    have : need t.hists c = 1 := if_pos e
    omega
  have hdis1 : ∀ t ∈ insert (c, lc) (insert (({ d with hist := some i } : Comp), ld) S), ∀ x, x ∈ lc → x ∈ t.2 → t = (c, lc) := by
    rintro t (rfl | rfl | ht) x x1 x2
    · rfl
    · exact absurd x2 (hdis x x1)
    · exact absurd x2 (hdisS x x1 t ht)
  have hch1 : ∀ x ∈ insert (c, lc) (insert (({ d with hist := some i } : Comp), ld) S), x.2.IsChain (fun a b => next a = b) := by
    rintro x (rfl | rfl | hx)
    · exact hcc
    · exact hdc
    · exact hSc x hx
  obtain ⟨j, t2, n2, R2, b1, b2, b3, b4, b5⟩ := growHistory_close (fin := false) (next := next) (t := { t with hists := H1 }) (g := d.gray)
    a2 (.inl rfl) (by omega) hcn1 hcd hcs hch hcn hC htop hdis1 hch1
  dsimp only at b4 b5
  have hcS1 : (c, lc) ∉ insert (({ d with hist := some i } : Comp), ld) S := by
    rintro (e | e)
    · have := congrArg (fun x : CL => x.1.gray) e
      dsimp only at this
      omega
    · exact hcS e
  rw [ins_diff hcS1] at b2
  have b4' : n2 = n + need t.hists d + need t.hists c := by
    rw [b4, hoc, a4']; unfold need; split <;> rfl
  -- linking
  have hi1 := a2.lt _ (.inr (.inl rfl)) i rfl
  have hiv : (t2.hists i).val = d.gray := by rw [b5 i hi1.1]; exact a3
  have hjv : (t2.hists j).val < d.gray := by rw [b3]; exact hcd
  have hij : i ≠ j := by rintro rfl; omega
  have hfl := b2.link (a := { d with hist := some i }) (b := { c with hist := some j, gray := d.gray }) (ld := ld) (lc := lc)
    (e := { head := if d.size = 0 then c.head else d.head, tail := c.tail, hist := some i, gray := d.gray, size := d.size + c.size })
    (.inr (.inl rfl)) (.inl rfl) rfl hiv rfl hjv rfl ⟨rfl, rfl⟩
  have e3 : insert (({ c with hist := some j, gray := d.gray } : Comp), lc) (insert (({ d with hist := some i } : Comp), ld) S) \
      {(({ d with hist := some i } : Comp), ld), (({ c with hist := some j, gray := d.gray } : Comp), lc)} = S := by
    ext x
    constructor
    · rintro ⟨rfl | rfl | hx, h2⟩
      · exact absurd (.inr rfl) h2
      · exact absurd (.inl rfl) h2
      · exact hx
    · intro hx
      refine ⟨.inr (.inr hx), ?_⟩
      rintro (rfl | e)
      · exact absurd (hS _ hx) (lt_irrefl _)
      · rw [Set.mem_singleton_iff] at e
        subst e
        exact absurd (hS _ hx) (lt_irrefl _)
  rw [e3] at hfl
  have hlc : lc ≠ [] := by obtain ⟨x, x1, -⟩ := htop; exact List.ne_nil_of_mem x1
  refine ⟨{ head := if d.size = 0 then c.head else d.head, tail := c.tail, hist := some i, gray := d.gray, size := d.size + c.size },
    if d.size = 0 then next else update next d.tail c.head, { t2 with hists := linkHist E t2.hists i j }, n2, R2, ?_, hfl, rfl, ?_, b4', fun k hk => ?_, ?_, ?_, ?_, ?_, ?_⟩
  · unfold merge
    rw [if_neg (by omega), a1]
    simp only [Option.bind_some]
    rw [b1]
    rfl
  · have : (linkHist E t2.hists i j i).val = d.gray := by rw [linkHist_val hij]; exact hiv
    simp [ownHist, this]
  · rw [linkHist_val hij, b5 k (by omega)]; exact a5 k hk
  · simp [hds, hcs]
  · dsimp only
    by_cases hl : ld = []
    · subst hl; simp [hds, hch]
    · have : ¬ d.size = 0 := by
        rw [hds]; exact fun e => hl (List.eq_nil_of_length_eq_zero e)
      rw [if_neg this, List.head?_append, hdh hl]; rfl
  · rw [List.getLast?_append, hct]; rfl
  · by_cases hl : ld = []
    · subst hl; simp [hds]; exact hcc
    · have : ¬ d.size = 0 := by
        rw [hds]; exact fun e => hl (List.eq_nil_of_length_eq_zero e)
      rw [if_neg this]
      refine chain_join hcc hch (fun hx => ?_) hdn hdc (hdt hl)
      exact hdis _ hx (List.mem_of_getLast? (hdt hl))
  · intro q hq
    split
    · rfl
    · rename_i h0
      refine Function.update_of_ne ?_ _ _
      rintro rfl
      have hl : ld ≠ [] := by rintro rfl; exact h0 (by simp [hds])
      exact hq (List.mem_of_getLast? (hdt hl))

/-- The end of a pass. -/
def Final (E : Env) (v : St) : Prop :=
  (∃ c l R, c.gray = 256 ∧ FI E true v.ts.hists v.nhist v.ts.out R {(c, l)}) ∧ ∀ i, Seen E.P i → i ∉ E.P.px → v.dir i ≠ 0

theorem sim_finish (hE : EnvOK E) (hI : Flood.Inv E.P s cs F) (hn : ¬ s.nbr ≤ E.P.nd) (h : Sim E v s F T R) :
    match Flood.finish s with
    | .next s' => ∃ v', finish E v = .next v' ∧ ∃ T' R', Sim E v' s' (insert s.cur F) T' R'
    | .done _ => ∃ v', finish E v = .done v' ∧ Final E v'
    | .ub => True := by
  have hP := hE.ok
  have hcs := h.cs_eq hI
  have hsorted := h.sorted hI
  obtain ⟨c, rest, hcs', htop⟩ := hI.core.cs_top
  rw [hcs'] at hcs
  obtain ⟨tc, T0, hT, htc, hrest⟩ := List.map_eq_cons_iff.1 hcs.symm
  subst hT
  obtain ⟨vc, c0, lc⟩ := tc
  dsimp only at htc
  subst htc
  subst hcs'
  obtain ⟨d, rest', hd⟩ : ∃ d rest', rest ++ [Flood.sent] = d :: rest' := by
    cases rest with
    | nil => exact ⟨_, _, rfl⟩
    | cons d r => exact ⟨_, _, rfl⟩
  have hcomps : s.comps = c0 :: d :: rest' := by rw [hI.comps]; simp [hd]
  obtain ⟨vd, vt, hvd⟩ : ∃ vd vt, T0.map (·.1) ++ [initComp 256] = vd :: vt := by
    cases T0 with
    | nil => exact ⟨_, _, rfl⟩
    | cons d r => exact ⟨_, _, rfl⟩
  have hvcomps : v.comps = vc :: vd :: vt := by rw [h.comps]; simp [hvd]
  have hEc := h.each (vc, c0, lc) List.mem_cons_self
  have hgc : E.P.gray s.cur = s.curGray := hI.cur_gray
  have hgl : s.curGray < 256 := by rw [← hgc]; exact hE.gray _ hI.cur_px
  have hcurl : s.cur ∉ lc := fun hx => hI.cur_F (hEc.mem_F hx)
  have hroot : (s.regs c0.region).parent = none := (hI.core.cs_reg c0 (by simp)).2.2.2
  have hmem0 : ∀ t ∈ T0, t.2.1 ∈ rest := by
    intro t ht; rw [← hrest]; exact List.mem_map_of_mem ht
  have hrootT : ∀ t ∈ T0, (s.regs t.2.1.region).parent = none ∧ t.2.1.region ≠ c0.region := by
    intro t ht
    have hm : t.2.1 ∈ c0 :: rest := List.mem_cons_of_mem _ (hmem0 t ht)
    refine ⟨(hI.core.cs_reg _ hm).2.2.2, fun e => ?_⟩
    have he := hI.core.comp_inj hm List.mem_cons_self e
    have hs := hI.core.cs_sorted
    rw [List.pairwise_cons] at hs
    have := hs.1 _ (hmem0 t ht)
    rw [he] at this; omega
  have hblc : below s.regs (update s.lab s.cur c0.region) (insert s.cur F) c0.region = insert s.cur (below s.regs s.lab F c0.region) := by
    rw [below_label hI.cur_F hroot, if_pos rfl]
  have hblt : ∀ t ∈ T0, below s.regs (update s.lab s.cur c0.region) (insert s.cur F) t.2.1.region =
      below s.regs s.lab F t.2.1.region := by
    intro t ht
    rw [below_label hI.cur_F hroot, if_neg (hrootT t ht).2]
  have hvg : vc.gray = s.curGray := by rw [hEc.gray]; exact htop
  -- the pixel is appended
  obtain ⟨c', next', hap, p1, p2, p3, p4, p5, p6, p7⟩ := append_spec (next := update v.next s.cur 0) (c := vc) (l := lc) (p := s.cur)
    (fun q hq => hE.pos q (hI.core.F_px q (hEc.mem_F hq))) hcurl hEc.nodup hEc.len
    (chain_congr (fun q hq => Function.update_of_ne (by rintro rfl; exact hcurl hq) _ _) hEc.chain) hEc.head hEc.tail hEc.tail0
  have hoth : ∀ t ∈ T0, ∀ q ∈ t.2.2, q ∉ lc ∧ q ≠ s.cur := by
    intro t ht q hq
    have ht' := h.each t (List.mem_cons_of_mem _ ht)
    refine ⟨fun hc => ?_, by rintro rfl; exact hI.cur_F (ht'.mem_F hq)⟩
    exact below_disjoint hroot (hrootT t ht).1 (Ne.symm (hrootT t ht).2) ((hEc.set q).2 hc) ((ht'.set q).2 hq)
  have hdisj : ∀ x ∈ lc ++ [s.cur], ∀ t ∈ T0, x ∉ t.2.2 := by
    intro x hx t ht hxt
    obtain ⟨q1, q2⟩ := hoth t ht x hxt
    simp only [List.mem_append, List.mem_singleton] at hx
    exact hx.elim q1 q2
  have hnd' : (lc ++ [s.cur]).Nodup := by
    rw [List.nodup_append]
    exact ⟨hEc.nodup, by simp, fun a ha b hb => by simp at hb; rintro rfl; rw [hb] at ha; exact hcurl ha⟩
  have hEc' : Each next' s.regs (update s.lab s.cur c0.region) (insert s.cur F) (c', { c0 with size := c0.size + 1 }, lc ++ [s.cur]) := by
    refine ⟨fun i => ?_, hnd', p3, p4, fun _ => p5, fun _ => by simp [p6], fun e => by simp at e, by rw [p2]; exact hEc.gray⟩
    dsimp only
    rw [hblc, Finset.mem_insert, hEc.set]
    simp only [List.mem_append, List.mem_singleton]
    exact Or.comm
  have hEt : ∀ t ∈ T0, Each next' s.regs (update s.lab s.cur c0.region) (insert s.cur F) t := by
    intro t ht
    refine (h.each t (List.mem_cons_of_mem _ ht)).congr (fun q hq => ?_) (hblt t ht)
    obtain ⟨q1, q2⟩ := hoth t ht q hq
    rw [p7 q q1, Function.update_of_ne q2]
  have hfi : FI E false v.ts.hists v.nhist v.ts.out R (tset ((c', { c0 with size := c0.size + 1 }, lc ++ [s.cur]) :: T0)) := by
    have hin := h.fi.inj
    refine h.fi.lists ?_ ?_ ?_
    · rintro t' ⟨x, hx, rfl⟩
      rcases List.mem_cons.1 hx with rfl | hx
      · exact .inr ⟨_, ⟨_, List.mem_cons_self, rfl⟩, p1.symm, p2.symm, List.prefix_append _ _⟩
      · exact .inr ⟨_, ⟨x, List.mem_cons_of_mem _ hx, rfl⟩, rfl, rfl, List.prefix_refl _⟩
    · rintro t ⟨x, hx, rfl⟩
      rcases List.mem_cons.1 hx with rfl | hx
      · exact ⟨_, ⟨_, List.mem_cons_self, rfl⟩, p1.symm, p2.symm, List.prefix_append _ _⟩
      · exact ⟨_, ⟨x, List.mem_cons_of_mem _ hx, rfl⟩, rfl, rfl, List.prefix_refl _⟩
    · have key : ∀ y ∈ T0, ∀ i, vc.hist = some i → y.1.hist = some i → False := by
        intro y hy i h1 h2
        have := hin _ ⟨_, List.mem_cons_self, rfl⟩ _ ⟨y, List.mem_cons_of_mem _ hy, rfl⟩ i h1 h2
        have hg := congrArg (fun x : CL => x.1.gray) this
        rw [List.pairwise_cons] at hsorted
        have := hsorted.1 y hy
        dsimp only at hg this
        omega
      rintro a ⟨x, hx, rfl⟩ b ⟨y, hy, rfl⟩ i hia hib
      rcases List.mem_cons.1 hx with rfl | hx <;> rcases List.mem_cons.1 hy with rfl | hy
      · rfl
      · exact (key y hy i (by rw [← p1]; exact hia) hib).elim
      · exact (key x hx i (by rw [← p1]; exact hib) hia).elim
      · exact hin _ ⟨x, List.mem_cons_of_mem _ hx, rfl⟩ _ ⟨y, List.mem_cons_of_mem _ hy, rfl⟩ i hia hib
  have hown : ownHist v.ts.hists c' = ownHist v.ts.hists vc := by unfold ownHist; rw [p1, p2]
  have hcount : v.nhist + (need v.ts.hists c' + T0.countP (fun t => (ownHist v.ts.hists t.1).isNone)) = s.nreg := by
    have := h.count
    rw [List.countP_cons] at this
    unfold need
    rw [hown]
    dsimp only at this
    by_cases e : ownHist v.ts.hists vc = none
    · rw [if_pos (by simp [e])] at this
      rw [if_pos e]; omega
    · rw [if_neg (by simpa using e)] at this
      rw [if_neg e]; omega
  have hnreg : s.nreg ≤ E.area := le_trans hI.nreg_le hE.area
  have hndir : ∀ i ∈ E.P.px, update v.dir s.cur s.nbr i = update s.cnt s.cur s.nbr i := by
    intro i hi
    by_cases e : i = s.cur
    · subst e; simp
    · rw [Function.update_of_ne e, Function.update_of_ne e]; exact h.dir i hi
  have hndirO : ∀ i, Seen E.P i → i ∉ E.P.px → update v.dir s.cur s.nbr i ≠ 0 := by
    intro i hi hp
    rw [Function.update_of_ne (by rintro rfl; exact hp hI.cur_px)]; exact h.dirO i hi hp
  have hmv : ∀ l p, p ∈ s.heap l → E.P.gray p = l ∧ update v.dir s.cur s.nbr p = update s.cnt s.cur s.nbr p := by
    intro l p hp
    obtain ⟨q1, q2, -⟩ := hI.core.heap_ok l p hp
    exact ⟨q2, hndir p q1⟩
  have hin : ∀ l < 256, v.top l < E.area + 256 := by
    intro l hl
    rw [h.lay.top l hl]
    have h1 := offset_lt (hist := histOf E.P) hl
    have h2 := hI.core.len_le l
    have := hE.room
    omega
  have hl := hI.label hP hn
  have hcinS : (c', lc ++ [s.cur]) ∈ tset ((c', { c0 with size := c0.size + 1 }, lc ++ [s.cur]) :: T0) :=
    ⟨_, List.mem_cons_self, rfl⟩
  have hcnot : (c', lc ++ [s.cur]) ∉ tset T0 := by
    rintro ⟨x, hx, e⟩
    have := congrArg Prod.snd e
    dsimp only at this
    exact hdisj s.cur (by simp) x hx (by rw [← this]; simp)
  have hdisS : ∀ t ∈ tset ((c', { c0 with size := c0.size + 1 }, lc ++ [s.cur]) :: T0), ∀ x, x ∈ lc ++ [s.cur] → x ∈ t.2 →
      t = (c', lc ++ [s.cur]) := by
    rintro t ⟨y, hy, rfl⟩ x x1 x2
    rcases List.mem_cons.1 hy with rfl | hy
    · rfl
    · exact absurd x2 (hdisj x x1 y hy)
  have hchS : ∀ x ∈ tset ((c', { c0 with size := c0.size + 1 }, lc ++ [s.cur]) :: T0), x.2.IsChain (fun a b => next' a = b) := by
    rintro x ⟨y, hy, rfl⟩
    rcases List.mem_cons.1 hy with rfl | hy
    · exact p4
    · exact (hEt y hy).chain
  have htopx : ∃ x ∈ lc ++ [s.cur], E.P.gray x = c'.gray := ⟨s.cur, by simp, by rw [p2, hvg]; exact hgc⟩
  have hComp : ∀ g, s.curGray ≤ g → (∀ k, s.curGray ≤ k → k ≤ g → s.heap k = []) → IsC E.P g (lc ++ [s.cur]).toFinset := by
    intro g hg hh
    have hset : below s.regs (update s.lab s.cur c0.region) (insert s.cur F) c0.region = (lc ++ [s.cur]).toFinset := by
      ext i
      rw [List.mem_toFinset]
      exact hEc'.set i
    rw [← hset]
    refine top_complete' (c := { c0 with size := c0.size + 1 }) (i := s.cur) hP hl (by dsimp only; rw [htop]; exact hg)
      (by dsimp only; rw [htop]; exact hh) ?_
    dsimp only
    rw [hblc]; exact Finset.mem_insert_self _ _
  have hneed : ownHist v.ts.hists c' = none → v.nhist < E.area := by
    intro e
    have : need v.ts.hists c' = 1 := if_pos e
    omega
  unfold Flood.finish finish
  rw [hcomps, hvcomps]
  simp only [h.cur, h.nbr, h.curGray, hap]
  rw [if_pos (hin _ hgl), h.lay.read hgl]
  cases hh : s.heap s.curGray with
  | cons p ps =>
    simp only [List.head?_cons]
    obtain ⟨m1, m2⟩ := hmv s.curGray p (by rw [hh]; simp)
    refine ⟨_, rfl, (c', { c0 with size := c0.size + 1 }, lc ++ [s.cur]) :: T0, R, ?_⟩
    refine ⟨by simp [hvd], by simp [hrest, hd], rfl, m1, m2, hndir, hndirO, h.lay.pop hh, ?_, hfi, ?_⟩
    · intro t ht
      rcases List.mem_cons.1 ht with rfl | ht
      · exact hEc'
      · exact hEt t ht
    · dsimp only
      rw [List.countP_cons]
      dsimp only
      unfold need at hcount
      by_cases e : ownHist v.ts.hists c' = none
      · rw [if_pos (by simp [e])]
        rw [if_pos e] at hcount; omega
      · rw [if_neg (by simpa using e)]
        rw [if_neg e] at hcount; omega
  | nil =>
    simp only [List.head?_nil]
    have h256 : s.heap 256 = [] := by
      by_contra hne
      obtain ⟨j, hj⟩ := List.exists_mem_of_ne_nil _ hne
      obtain ⟨j1, j2, -⟩ := hI.core.heap_ok 256 j hj
      have := hE.gray j j1; omega
    rw [scan_sim h.lay hin _ _ (by omega), scan_255 h256 _ hgl]
    cases hsc : Flood.scan s.heap (256 - s.curGray) (s.curGray + 1) with
    | none =>
      simp only
      have hall : ∀ k, s.curGray ≤ k → k ≤ 256 → s.heap k = [] := by
        intro k k1 k2
        by_cases e : k = s.curGray
        · rw [e]; exact hh
        · exact Flood.scan_none hsc k (by omega) (by omega)
      have hT0 : T0 = [] := by
        cases T0 with
        | nil => rfl
        | cons a b =>
          exfalso
          have hm := hmem0 a (by simp)
          have hgr : a.2.1.gray < 257 := (hI.core.cs_reg a.2.1 (by simp [hm])).2.2.1
          have hs := hI.core.cs_sorted
          rw [List.pairwise_cons] at hs
          have hlt := hs.1 _ hm
          exact hI.core.cs_wait a.2.1 (by simpa using hm) (hall _ (by omega) (by omega))
      subst hT0
      obtain ⟨rfl, rfl⟩ : initComp 256 = vd ∧ [] = vt := by simpa using hvd
      obtain ⟨i, t2, n2, R2, g1, g2, g3, g4, g5⟩ := growHistory_close (fin := true) (next := next') (t := v.ts) (g := 256) hfi hcinS
        (by rw [p2, hvg]; exact hgl) hneed (by rw [p2, hvg]; exact hgl) p3 p5 hnd'
        (fun g' g1 g2 => hComp g' (by rw [p2, hvg] at g1; exact g1) (fun k k1 k2 => hall k k1 (by omega))) htopx hdisS hchS
      have hca : closeAll E next' [c', initComp 256] v.ts v.nhist = some (t2, n2) := by
        unfold closeAll
        rw [if_pos (by rw [p2, hvg]; omega), g1]
        simp only [Option.bind_some]
        unfold closeAll
        simp [initComp]
      rw [hca]
      refine ⟨_, rfl, ⟨{ c' with hist := some i, gray := 256 }, lc ++ [s.cur], R2, rfl, ?_⟩, hndirO⟩
      have e : insert (({ c' with hist := some i, gray := 256 } : Comp), lc ++ [s.cur])
          (tset [(c', { c0 with size := c0.size + 1 }, lc ++ [s.cur])] \ {(c', lc ++ [s.cur])}) =
          {(({ c' with hist := some i, gray := 256 } : Comp), lc ++ [s.cur])} := by
        rw [tset_cons, ins_diff hcnot]
        ext x; simp [tset]
      rw [e] at g2
      exact g2
    | some l =>
      simp only
      obtain ⟨l1, l2, l3, l4⟩ := Flood.scan_some hsc
      have hl256 : l < 256 := by
        obtain ⟨j, hj⟩ := List.exists_mem_of_ne_nil _ l3
        obtain ⟨j1, j2, -⟩ := hI.core.heap_ok l j hj
        have := hE.gray j j1; omega
      have hemp : ∀ k, s.curGray ≤ k → k < l → s.heap k = [] := by
        intro k k1 k2
        by_cases e : k = s.curGray
        · rw [e]; exact hh
        · exact l4 k (by omega) k2
      rw [h.lay.read hl256]
      cases hhl : s.heap l with
      | nil => exact absurd hhl l3
      | cons p ps =>
        simp only [List.head?_cons]
        obtain ⟨m1, m2⟩ := hmv l p (by rw [hhl]; simp)
        -- storing the size does not change the regions
        generalize hreg2 : update s.regs c0.region { s.regs c0.region with size := c0.size + 1 } = regs2
        have hpar2 : ∀ r, (regs2 r).parent = (s.regs r).parent := by
          intro r; rw [← hreg2]
          by_cases e : r = c0.region
          · subst e; simp
          · rw [Function.update_of_ne e]
        have hbl2 : ∀ r, below regs2 (update s.lab s.cur c0.region) (insert s.cur F) r =
            below s.regs (update s.lab s.cur c0.region) (insert s.cur F) r := below_congr hpar2
        have hparn : ∀ a < s.nreg, ∀ b, (regs2 a).parent = some b → b < s.nreg :=
          fun a ha b hb => (hI.core.reg_parent a ha b (by rw [← hpar2]; exact hb)).1
        have hlabn : ∀ i ∈ insert s.cur F, update s.lab s.cur c0.region i < s.nreg :=
          fun i hi => (hl.lab_ok i hi).1
        have hdiff : l < vd.gray ↔ l < d.gray := by
          cases hT0 : T0 with
          | nil =>
            subst hT0
            simp only [List.map_nil] at hrest
            subst hrest
            obtain ⟨rfl, rfl⟩ : initComp 256 = vd ∧ [] = vt := by simpa using hvd
            obtain ⟨rfl, rfl⟩ : Flood.sent = d ∧ [] = rest' := by simpa using hd
            simp only [initComp, Flood.sent]; omega
          | cons a b =>
            subst hT0
            obtain ⟨e1, -⟩ : a.1 = vd ∧ _ := by simpa using hvd
            obtain ⟨e2, -⟩ : a.2.1 = d ∧ _ := by
              rw [← hrest] at hd
              simpa using hd
            rw [← e1, ← e2, (h.each a (by simp)).gray]
        by_cases hld : l < d.gray
        · rw [if_pos hld, if_pos (hdiff.2 hld)]
          obtain ⟨i, t2, n2, R2, g1, g2, g3, g4, g5⟩ := growHistory_close (fin := false) (next := next') (t := v.ts) (g := l) hfi hcinS
            (by rw [p2, hvg]; exact hgl) hneed (by rw [p2, hvg]; omega) p3 p5 hnd'
            (fun g' g1 g2 => hComp g' (by rw [p2, hvg] at g1; exact g1) (fun k k1 k2 => hemp k k1 (by omega))) htopx hdisS hchS
          rw [g1]
          simp only
          refine ⟨_, rfl, ({ c' with hist := some i, gray := l }, (Flood.raise l { c0 with size := c0.size + 1 } regs2 s.nreg).1,
            lc ++ [s.cur]) :: T0, R2, ?_⟩
          have hbr : ∀ r, below (Flood.raise l { c0 with size := c0.size + 1 } regs2 s.nreg).2.1
              (update s.lab s.cur c0.region) (insert s.cur F) r = if r = s.nreg then
                below regs2 (update s.lab s.cur c0.region) (insert s.cur F) s.nreg ∪
                below regs2 (update s.lab s.cur c0.region) (insert s.cur F) c0.region
              else below regs2 (update s.lab s.cur c0.region) (insert s.cur F) r := by
            intro r
            have hcn : c0.region < s.nreg := (hI.core.cs_reg c0 (by simp)).1
            refine below_link hparn hlabn (by rw [hpar2]; exact hroot) ?_ ?_ ?_
            · intro x hx hxc
              simp only [Flood.raise, Flood.setParent]
              rw [Function.update_of_ne (by omega), Function.update_of_ne hxc]
            · simp only [Flood.raise, Flood.setParent]
              rw [Function.update_of_ne (by omega), Function.update_self]
            · simp [Flood.raise]
          have hnone : below regs2 (update s.lab s.cur c0.region) (insert s.cur F) s.nreg = ∅ := by
            rw [hbl2]
            ext i
            simp only [Finset.notMem_empty, iff_false]
            intro hi
            rw [mem_below] at hi
            exact absurd (hl.anc_lt hi.1 hi.2) (by omega)
          refine ⟨by simp [hvd], by simp [hrest, hd, Flood.raise], rfl, m1, m2, hndir, hndirO, h.lay.pop hhl, ?_, ?_, ?_⟩
          · intro t ht
            rcases List.mem_cons.1 ht with rfl | ht
            · refine ⟨fun i => ?_, hnd', p3, p4, fun _ => p5, fun _ => by simp [p6], fun e => by simp at e, rfl⟩
              have : (Flood.raise l { c0 with size := c0.size + 1 } regs2 s.nreg).1.region = s.nreg := rfl
              dsimp only
              rw [this, hbr, if_pos rfl, hnone, Finset.empty_union, hbl2]
              exact hEc'.set i
            · have hm : t.2.1 ∈ c0 :: rest := List.mem_cons_of_mem _ (hmem0 t ht)
              have htn : t.2.1.region ≠ s.nreg := by have := (hI.core.cs_reg _ hm).1; omega
              refine (hEt t ht).congr (fun _ _ => rfl) ?_
              dsimp only
              rw [hbr, if_neg htn, hbl2]
          · rw [tset_cons]
            rw [tset_cons, ins_diff hcnot] at g2
            exact g2
          · dsimp only
            rw [List.countP_cons, if_pos, countP_congr' (H := v.ts.hists) (H' := t2.hists)]
            · have e : n2 = v.nhist + need v.ts.hists c' := by rw [g4]; unfold need; split <;> rfl
              simp only [Flood.raise]
              omega
            · intro t ht k hk
              exact g5 k (hfi.lt _ ⟨t, List.mem_cons_of_mem _ ht, rfl⟩ k hk).1
            · have : (t2.hists i).val ≠ l := by rw [g3, p2, hvg]; omega
              simp [ownHist, this]
        · rw [if_neg hld, if_neg (fun e => hld (hdiff.1 e))]
          obtain ⟨⟨vd0, d0, ld⟩, T1, rfl⟩ : ∃ td T1, T0 = td :: T1 := by
            cases T0 with
            | nil =>
              exfalso
              simp only [List.map_nil] at hrest
              subst hrest
              obtain ⟨rfl, rfl⟩ : Flood.sent = d ∧ [] = rest' := by simpa using hd
              exact hld (by simp only [Flood.sent]; omega)
            | cons a b => exact ⟨a, b, rfl⟩
          obtain ⟨rfl, rfl⟩ : vd0 = vd ∧ T1.map (·.1) ++ [initComp 256] = vt := by simpa using hvd
          obtain ⟨rest1, hr1, hr2⟩ : ∃ rest1, rest = d0 :: rest1 ∧ T1.map (·.2.1) = rest1 := ⟨_, hrest.symm, rfl⟩
          subst hr1
          obtain ⟨rfl, rfl⟩ : d0 = d ∧ rest1 ++ [Flood.sent] = rest' := by simpa using hd
          have hEd := hEt (vd0, d0, ld) (by simp)
          have hvdg : vd0.gray = d0.gray := hEd.gray
          have hsort := hI.core.cs_sorted
          rw [List.pairwise_cons, List.pairwise_cons] at hsort
          have hlt0 : s.curGray < d0.gray := by rw [← htop]; exact hsort.1 d0 (by simp)
          have hdl : d0.gray = l := by
            have h1 := hI.core.cs_wait d0 (by simp)
            by_contra hne
            exact h1 (l4 _ (by omega) (by omega))
          subst hdl
          have hdd : (vd0, d0, ld) ∈ (vd0, d0, ld) :: T1 := List.mem_cons_self
          have hcd : c0.region ≠ d0.region := Ne.symm (hrootT _ hdd).2
          have hsrt := hsorted
          rw [List.pairwise_cons, List.pairwise_cons] at hsrt
          rw [tset_cons, tset_cons] at hfi
          dsimp only at hfi
          rw [List.countP_cons] at hcount
          have hcount' : v.nhist + need v.ts.hists vd0 + need v.ts.hists c' + T1.countP (fun t => (ownHist v.ts.hists t.1).isNone) = s.nreg := by
            dsimp only at hcount
            have e : need v.ts.hists vd0 = if (ownHist v.ts.hists vd0).isNone = true then 1 else 0 := by
              unfold need; simp
            rw [← e] at hcount
            omega
          have hT1d : ∀ x ∈ lc ++ [s.cur], ∀ y ∈ tset T1, x ∉ y.2 := by
            rintro x hx y ⟨z, hz, rfl⟩
            exact hdisj x hx z (List.mem_cons_of_mem _ hz)
          obtain ⟨e, next2, t2, n2, R2, q1, q2, q3, q4, q5, q6, q7, q8, q9, q10, q11⟩ := merge_spec (next := next') (c := c') (d := vd0)
            (lc := lc ++ [s.cur]) (ld := ld) (S := tset T1) hfi (by rw [p2, hvg, hvdg]; exact hlt0) (by rw [hvdg]; exact hl256)
            (by
              rintro x ⟨y, hy, rfl⟩
              exact hsrt.2.1 y hy) (by omega) p3 p5 (by simp [p6]) hnd' p4
            (fun g' g1 g2 => hComp g' (by rw [p2, hvg] at g1; exact g1) (fun k k1 k2 => hemp k k1 (by rw [hvdg] at g2; omega))) htopx hEd.len
            hEd.head hEd.tail hEd.nodup hEd.chain (fun x hx => hdisj x hx _ hdd) hT1d
            (by
              rintro x ⟨y, hy, rfl⟩
              exact (hEt y (List.mem_cons_of_mem _ hy)).chain)
          have hmf : Flood.mergeLoop d0.gray { c0 with size := c0.size + 1 } (d0 :: (rest1 ++ [Flood.sent])) regs2 s.nreg
              = some ⟨{ d0 with size := d0.size + (c0.size + 1) } :: (rest1 ++ [Flood.sent]),
                  Flood.setParent regs2 c0.region d0.region, s.nreg⟩ := by
            unfold Flood.mergeLoop; simp
          rw [q1, hmf]
          simp only
          refine ⟨_, rfl, (e, { d0 with size := d0.size + (c0.size + 1) }, ld ++ (lc ++ [s.cur])) :: T1, R2, ?_⟩
          have hbr : ∀ r, below (Flood.setParent regs2 c0.region d0.region)
              (update s.lab s.cur c0.region) (insert s.cur F) r = if r = d0.region then
                below regs2 (update s.lab s.cur c0.region) (insert s.cur F) d0.region ∪
                below regs2 (update s.lab s.cur c0.region) (insert s.cur F) c0.region
              else below regs2 (update s.lab s.cur c0.region) (insert s.cur F) r := by
            intro r
            refine below_link hparn hlabn (by rw [hpar2]; exact hroot) ?_ ?_ ?_
            · intro x hx hxc
              simp only [Flood.setParent]
              rw [Function.update_of_ne hxc]
            · simp [Flood.setParent]
            · simp only [Flood.setParent]
              rw [Function.update_of_ne (Ne.symm hcd), hpar2]; exact (hrootT _ hdd).1
          have hT1 : ∀ t ∈ T1, t.2.1.region ≠ d0.region := by
            intro t ht hc
            have hm : t.2.1 ∈ rest1 := by rw [← hr2]; exact List.mem_map_of_mem ht
            have he := hI.core.comp_inj (c := t.2.1) (d := d0) (by simp [hm]) (by simp) hc
            have := hsort.2.1 _ hm
            rw [he] at this; omega
          have hne : ld ++ (lc ++ [s.cur]) ≠ [] := by simp
          refine ⟨by simp, by simp [hr2], rfl, m1, m2, hndir, hndirO, h.lay.pop hhl, ?_, ?_, ?_⟩
          · intro t ht
            rcases List.mem_cons.1 ht with rfl | ht
            · refine ⟨fun i => ?_, ?_, q7, q10, fun _ => q8, fun _ => q9, fun e => absurd e hne, by rw [q3, hvdg]⟩
              · dsimp only
                rw [hbr, if_pos rfl, hbl2, hbl2, Finset.mem_union, List.mem_append]
                exact or_congr (hEd.set i) (hEc'.set i)
              · dsimp only
                rw [List.nodup_append]
                refine ⟨hEd.nodup, hnd', fun a ha b hb => ?_⟩
                rintro rfl
                exact hdisj a hb _ hdd ha
            · have ht' : t ∈ (vd0, d0, ld) :: T1 := List.mem_cons_of_mem _ ht
              refine (hEt t ht').congr (fun x hx => q11 x fun hxd => ?_) ?_
              · exact below_disjoint (hrootT _ ht').1 (hrootT _ hdd).1 (hT1 t ht) (((hEt t ht').set x).2 hx |> fun h => by
                  exact h) ((hEd.set x).2 hxd)
              · dsimp only
                rw [hbr, if_neg (hT1 t ht), hbl2]
          · rw [tset_cons]; exact q2
          · dsimp only
            rw [List.countP_cons, if_neg, countP_congr' (H := v.ts.hists) (H' := t2.hists)]
            · omega
            · intro t ht k hk
              exact q6 k (hfi.lt _ (.inr (.inr ⟨t, ht, rfl⟩)) k hk).1
            · simpa using q4

/-- One step. -/
theorem sim_step (hE : EnvOK E) (hI : Flood.Inv E.P s cs F) (h : Sim E v s F T R) :
    match Flood.step E.P s with
    | .next s' => ∃ v', step E v = .next v' ∧ ∃ cs' F' T' R', Flood.Inv E.P s' cs' F' ∧ Sim E v' s' F' T' R'
    | .done _ => ∃ v', step E v = .done v' ∧ Final E v'
    | .ub => True := by
  unfold Flood.step step
  by_cases hn : s.nbr ≤ E.P.nd
  · simp only [hn, h.nbr, if_true]
    have h1 := Flood.step_tour hE.ok hI hn
    have h2 := sim_tour hE hI hn h
    revert h1 h2
    cases Flood.tour E.P s with
    | next s' =>
      simp only
      rintro ⟨cs', h1, -⟩ ⟨v', h2, T', h3⟩
      exact ⟨v', h2, cs', F, T', R, h1, h3⟩
    | done s' => simp
    | ub => simp
  · simp only [hn, h.nbr, if_false]
    have h1 := Flood.step_finish hE.ok hI hn
    have h2 := sim_finish hE hI hn h
    revert h1 h2
    cases Flood.finish s with
    | next s' =>
      simp only
      rintro ⟨cs', h1, -⟩ ⟨v', h2, T', R', h3⟩
      exact ⟨v', h2, cs', _, T', R', h1, h3⟩
    | done s' => simp only; exact fun _ h => h
    | ub => simp

/-- A whole pass. -/
theorem sim_run (hE : EnvOK E) : ∀ (n : Nat) {v : St} {s : Flood.St} {cs : List Flood.Comp} {F : Finset Nat}
    {T : List Trip} {R : Nat → List Nat}, Flood.Inv E.P s cs F → Sim E v s F T R →
    match Flood.run E.P n s with
    | .next _ => True
    | .done _ => ∃ v', run E n v = .done v' ∧ Final E v'
    | .ub => True
  | 0, v, s, cs, F, T, R, _, _ => trivial
  | n + 1, v, s, cs, F, T, R, hI, h => by
    have h1 := sim_step hE hI h
    simp only [Flood.run, run]
    revert h1
    cases Flood.step E.P s with
    | next s' =>
      rintro ⟨v', h1, cs', F', T', R', h2, h3⟩
      rw [h1]
      exact sim_run hE n h2 h3
    | done s' =>
      rintro ⟨v', h1, h2⟩
      rw [h1]
      exact ⟨v', rfl, h2⟩
    | ub => exact fun _ => trivial

/-- The pass comes to its end. -/
theorem run_done (hE : EnvOK E) (hcap : 257 ≤ E.P.cap) {m : Mem} {top : Nat → Nat} (hd : ∀ i ∈ E.P.px, m.dir i = 0)
    (hdO : ∀ i, Seen E.P i → i ∉ E.P.px → m.dir i ≠ 0) (hl : Lay3 (histOf E.P) m.heap top (fun _ => []))
    {n : Nat} (hn : (E.P.nd + 1) * E.P.px.card ≤ n) :
    ∃ v', run E n (start E m top) = .done v' ∧ Final E v' := by
  have h1 := sim_run hE n (Flood.inv_init hE.ok) (sim_init hE hd hdO hl)
  have h2 := Flood.run_inv hE.ok n (Flood.inv_init hE.ok)
  revert h1 h2
  cases Flood.run E.P n (Flood.init E.P) with
  | next s' =>
    rintro - ⟨cs', F', h3, h4⟩
    have := h3.work_lt
    rw [Flood.work_init] at h4
    omega
  | done s' => exact fun h _ => h
  | ub =>
    rintro - h3
    exfalso
    have : (E.P.px.image E.P.gray).card ≤ (Finset.range 256).card := by
      refine Finset.card_le_card fun g hg => ?_
      obtain ⟨i, hi, rfl⟩ := Finset.mem_image.1 hg
      exact Finset.mem_range.2 (hE.gray i hi)
    rw [Finset.card_range] at this
    simp only at h3
    omega

end Verif.OpenCv3
