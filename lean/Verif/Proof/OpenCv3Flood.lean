import Verif.Proof.OpenCv3Grow
import Verif.Proof.OpenCvFlood

/-!
# The OpenCV 3 detector: the pass follows the flooding of V2

`Verif.Model.OpenCv3` runs in lockstep with `Verif.Model.Flood`.
-/

namespace Verif.OpenCv3

open Function (update)
open Verif.Flood (Patch below mem_below Core Anc)
open Verif.FloodMem (offset Stk offset_lt histOf)
open Verif.OpenCv (IsC Seen below_label below_congr below_fresh below_link below_disjoint scan_255)
open Verif.Spec (LConn)

/-! ### The stacks -/

/-- The waiting pixels of the levels below 256. -/
structure Lay3 (hist : Nat → Nat) (mem : Nat → Option Nat) (top : Nat → Nat) (heap : Nat → List Nat) : Prop where
  top : ∀ l < 256, top l = offset hist l + (heap l).length
  stk : ∀ l < 256, Stk mem (offset hist l) (heap l)

theorem Lay3.push {hist : Nat → Nat} {mem : Nat → Option Nat} {top : Nat → Nat} {heap : Nat → List Nat}
    (h : Lay3 hist mem top heap) {l x : Nat} (hl : l < 256) (hlen : ∀ l, (heap l).length ≤ hist l)
    (hroom : (heap l).length + 1 ≤ hist l) :
    Lay3 hist (update mem (top l + 1) (some x)) (update top l (top l + 1)) (update heap l (x :: heap l)) where
  top := by
    intro k hk
    by_cases e : k = l
    · subst e; simp [h.top k hk]; omega
    · simp only [Function.update_of_ne e]; exact h.top k hk
  stk := by
    intro k hk
    rw [h.top l hl]
    by_cases e : k = l
    · subst e; simp only [Function.update_self]; exact (h.stk k hk).push
    · simp only [Function.update_of_ne e]
      refine Stk.frame ?_ (h.stk k hk)
      have := hlen k
      rcases Nat.lt_or_gt_of_ne e with hlt | hgt
      · have := offset_lt (hist := hist) hlt; omega
      · have := offset_lt (hist := hist) hgt; omega

theorem Lay3.pop {hist : Nat → Nat} {mem : Nat → Option Nat} {top : Nat → Nat} {heap : Nat → List Nat}
    (h : Lay3 hist mem top heap) {l x : Nat} {xs : List Nat} (hx : heap l = x :: xs) :
    Lay3 hist mem (update top l (top l - 1)) (update heap l xs) where
  top := by
    intro k hk
    by_cases e : k = l
    · subst e; simp [h.top k hk, hx]
    · simp only [Function.update_of_ne e]; exact h.top k hk
  stk := by
    intro k hk
    by_cases e : k = l
    · subst e; simp only [Function.update_self]; have := h.stk k hk; rw [hx] at this; exact this.2
    · simp only [Function.update_of_ne e]; exact h.stk k hk

theorem Lay3.read {hist : Nat → Nat} {mem : Nat → Option Nat} {top : Nat → Nat} {heap : Nat → List Nat}
    (h : Lay3 hist mem top heap) {l : Nat} (hl : l < 256) : mem (top l) = (heap l).head? := by
  rw [h.top l hl]; exact (h.stk l hl).top

/-! ### The relation -/

/-- A component, the component of V2, and its pixels. -/
abbrev Trip := Comp × Flood.Comp × List Nat

/-- The components with their lists. -/
def tset (T : List Trip) : Set CL := { x | ∃ t ∈ T, x = (t.1, t.2.2) }

theorem tset_cons (t : Trip) (T : List Trip) : tset (t :: T) = insert (t.1, t.2.2) (tset T) := by
  ext x
  simp [tset]

/-- What holds of one component. -/
structure Each (next : Nat → Nat) (regs : Nat → Flood.Reg) (lab : Nat → Nat) (F : Finset Nat) (t : Trip) : Prop where
  set : ∀ i, i ∈ below regs lab F t.2.1.region ↔ i ∈ t.2.2
  nodup : t.2.2.Nodup
  len : t.1.size = t.2.2.length
  chain : t.2.2.IsChain (fun a b => next a = b)
  head : t.2.2 ≠ [] → t.2.2.head? = some t.1.head
  tail : t.2.2 ≠ [] → t.2.2.getLast? = some t.1.tail
  tail0 : t.2.2 = [] → t.1.tail = 0
  gray : t.1.gray = t.2.1.gray

/-- What the caller guarantees. -/
structure EnvOK (E : Env) : Prop where
  ok : E.P.OK
  gray : ∀ i ∈ E.P.px, E.P.gray i < 256
  area : E.P.px.card ≤ E.area
  room : offset (histOf E.P) 256 ≤ E.area + 256
  seen : ∀ i, Seen E.P i → i < E.area
  pos : ∀ i ∈ E.P.px, i ≠ 0

/-- A state of this detector and a state of V2. -/
structure Sim (E : Env) (v : St) (s : Flood.St) (F : Finset Nat) (T : List Trip) (R : Nat → List Nat) : Prop where
  comps : v.comps = T.map (·.1) ++ [initComp 256]
  cs : s.comps = T.map (·.2.1) ++ [Flood.sent]
  cur : v.cur = s.cur
  curGray : v.curGray = s.curGray
  nbr : v.nbr = s.nbr
  dir : ∀ i ∈ E.P.px, v.dir i = s.cnt i
  dirO : ∀ i, Seen E.P i → i ∉ E.P.px → v.dir i ≠ 0
  lay : Lay3 (histOf E.P) v.heap v.top s.heap
  each : ∀ t ∈ T, Each v.next s.regs s.lab F t
  fi : FI E false v.ts.hists v.nhist v.ts.out R (tset T)
  count : v.nhist + T.countP (fun t => (ownHist v.ts.hists t.1).isNone) = s.nreg

variable {E : Env} {v : St} {s : Flood.St} {F : Finset Nat} {T : List Trip} {R : Nat → List Nat} {cs : List Flood.Comp}

theorem chain_congr {next next' : Nat → Nat} : ∀ {l : List Nat}, (∀ p ∈ l, next' p = next p) →
    l.IsChain (fun a b => next a = b) → l.IsChain (fun a b => next' a = b)
  | [], _, _ => .nil
  | [x], _, _ => .singleton x
  | x :: y :: l, h, hc => by
    rw [List.isChain_cons_cons] at hc ⊢
    exact ⟨by rw [h x (by simp)]; exact hc.1, chain_congr (fun p hp => h p (by simp [hp])) hc.2⟩

theorem Each.congr {next next' : Nat → Nat} {regs regs' : Nat → Flood.Reg} {lab lab' : Nat → Nat} {F F' : Finset Nat} {t : Trip}
    (h : Each next regs lab F t) (hn : ∀ p ∈ t.2.2, next' p = next p)
    (hB : below regs' lab' F' t.2.1.region = below regs lab F t.2.1.region) : Each next' regs' lab' F' t :=
  ⟨by rw [hB]; exact h.set, h.nodup, h.len, chain_congr hn h.chain, h.head, h.tail, h.tail0, h.gray⟩

theorem Each.mem_F {next : Nat → Nat} {regs : Nat → Flood.Reg} {lab : Nat → Nat} {F : Finset Nat} {t : Trip}
    (h : Each next regs lab F t) {p : Nat} (hp : p ∈ t.2.2) : p ∈ F := (mem_below.1 ((h.set p).2 hp)).1

theorem sim_init {m : Mem} {top : Nat → Nat} (hE : EnvOK E) (hd : ∀ i ∈ E.P.px, m.dir i = 0)
    (hdO : ∀ i, Seen E.P i → i ∉ E.P.px → m.dir i ≠ 0) (hl : Lay3 (histOf E.P) m.heap top (fun _ => [])) :
    Sim E (start E m top) (Flood.init E.P) ∅
      [(initComp (E.P.gray E.P.start), { region := 0, gray := E.P.gray E.P.start, size := 0 }, [])] (fun _ => []) := by
  have hs := hE.ok.start_mem
  refine ⟨rfl, rfl, rfl, rfl, rfl, ?_, ?_, hl, ?_, ?_, ?_⟩
  · intro i hi
    simp only [start, Flood.init]
    by_cases e : i = E.P.start
    · subst e; simp
    · rw [Function.update_of_ne e, Function.update_of_ne e, hd i hi, if_pos hi]
  · intro i hi hp
    simp only [start]
    have : i ≠ E.P.start := by rintro rfl; exact hp hs
    rw [Function.update_of_ne this]; exact hdO i hi hp
  · intro t ht
    simp only [List.mem_singleton] at ht
    subst ht
    exact ⟨fun i => by simp [below], by simp, by simp [initComp], by simp, by simp, by simp, by simp [initComp], rfl⟩
  · have hn : ∀ t ∈ tset [(initComp (E.P.gray E.P.start), ({ region := 0, gray := E.P.gray E.P.start, size := 0 } : Flood.Comp), [])],
        t.1.hist = none := by
      rintro t ⟨x, hx, rfl⟩
      simp only [List.mem_singleton] at hx
      subst hx; rfl
    refine ⟨⟨?_, ?_, ?_⟩, ?_, ?_, ?_, ?_, ?_, ?_, ?_, ?_, ?_, by simp [start]⟩
    · intro i hi; simp only [start] at hi; omega
    · intro i hi; simp only [start] at hi; omega
    · intro i hi; simp only [start] at hi; omega
    · intro t ht i hi; rw [hn t ht] at hi; simp at hi
    · intro t ht _ _ i hi; rw [hn t ht] at hi; simp at hi
    · intro t ht i hi; rw [hn t ht] at hi; simp at hi
    · intro i hi; simp only [start] at hi; omega
    · intro i hi; simp only [start] at hi; omega
    · intro i hi; simp only [start] at hi; omega
    · intro i hi; simp only [start] at hi; omega
    · intro i hi; simp only [start] at hi; omega
    · simp [start]
  · simp [start, Flood.init, ownHist, initComp]

theorem Sim.lens (h : Sim E v s F T R) : v.comps.length = s.comps.length := by
  rw [h.comps, h.cs]; simp

theorem Sim.cs_eq (h : Sim E v s F T R) (hI : Flood.Inv E.P s cs F) : cs = T.map (·.2.1) := by
  have h1 := hI.comps
  rw [h.cs] at h1
  exact (List.append_inj_left' h1 rfl).symm

/-- No component has an entry twice. -/
theorem Sim.sorted (h : Sim E v s F T R) (hI : Flood.Inv E.P s cs F) : T.Pairwise (fun a b => a.1.gray < b.1.gray) := by
  have h1 := hI.core.cs_sorted
  rw [h.cs_eq hI, List.pairwise_map] at h1
  refine h1.imp_of_mem ?_
  intro a b ha hb hab
  rw [(h.each a ha).gray, (h.each b hb).gray]; exact hab

theorem sim_tour (hE : EnvOK E) (hI : Flood.Inv E.P s cs F) (hn : s.nbr ≤ E.P.nd) (h : Sim E v s F T R) :
    match Flood.tour E.P s with
    | .next s' => ∃ v', tour E v = .next v' ∧ ∃ T', Sim E v' s' F T' R
    | .done _ => False
    | .ub => tour E v = .ub := by
  have hlen := h.lens
  have hseen : Seen E.P (E.P.nb s.cur s.nbr) := .inr ⟨s.cur, hI.cur_px, s.nbr, hI.nbr_pos, hn, rfl⟩
  have hstep := Flood.step_tour hE.ok hI hn
  have hll := hI.core.len_le
  have haddr : ∀ l < 256, (s.heap l).length + 1 ≤ histOf E.P l → v.top l + 1 < E.area + 256 := by
    intro l hl h1
    rw [h.lay.top l hl]
    have h2 := offset_lt (hist := histOf E.P) hl
    have := hE.room
    omega
  unfold Flood.tour at hstep ⊢
  unfold tour
  simp only [h.cur, h.nbr, h.curGray]
  rw [if_pos (hE.seen _ hseen)]
  generalize hq : E.P.nb s.cur s.nbr = q at hseen hstep ⊢
  by_cases hc : s.cnt q = 0
  · obtain ⟨q1, q2, q3, q4, q5⟩ := hI.unvisited hn (by rw [hq]; exact hc)
    rw [hq] at q1 q2 q3 q4 q5
    have hv : v.dir q = 0 := by rw [h.dir q q1]; exact hc
    have hcg : s.curGray < 256 := by rw [← hI.cur_gray]; exact hE.gray _ hI.cur_px
    have hqg := hE.gray q q1
    have hdir1 : ∀ i ∈ E.P.px, update v.dir q 1 i = update s.cnt q 1 i := by
      intro i hi
      by_cases e : i = q
      · subst e; simp
      · rw [Function.update_of_ne e, Function.update_of_ne e]; exact h.dir i hi
    have hdirO1 : ∀ i, Seen E.P i → i ∉ E.P.px → update v.dir q 1 i ≠ 0 := by
      intro i hi hp
      rw [Function.update_of_ne (by rintro rfl; exact hp q1)]; exact h.dirO i hi hp
    simp only [hc, hv, if_true] at hstep ⊢
    by_cases hgq : E.P.gray q < s.curGray
    · simp only [hgq, if_true, hlen] at hstep ⊢
      by_cases hcap : s.comps.length < E.P.cap
      · simp only [hcap, if_true] at hstep ⊢
        obtain ⟨cs', hI', -⟩ := hstep
        have hroom : (s.heap s.curGray).length + 1 ≤ histOf E.P s.curGray := by
          have := hI'.core.len_le s.curGray
          simpa using this
        rw [if_pos ⟨haddr _ hcg hroom, trivial⟩]
        refine ⟨_, rfl, (initComp (E.P.gray q), { region := s.nreg, gray := E.P.gray q, size := 0 }, []) :: T, ?_⟩
        have hpar : ∀ a < s.nreg, ∀ b, (s.regs a).parent = some b → b < s.nreg :=
          fun a ha b hb => (hI.core.reg_parent a ha b hb).1
        have hlab : ∀ i ∈ F, s.lab i < s.nreg := fun i hi => (hI.core.lab_ok i hi).1
        refine ⟨by simp [h.comps], by simp [h.cs], rfl, rfl, rfl, ?_, ?_, ?_, ?_, ?_, ?_⟩
        · intro i hi
          dsimp only
          by_cases e : i = s.cur
          · subst e; simp
          · rw [Function.update_of_ne e, Function.update_of_ne e]; exact hdir1 i hi
        · intro i hi hp
          dsimp only
          rw [Function.update_of_ne (by rintro rfl; exact hp hI.cur_px)]; exact hdirO1 i hi hp
        · exact h.lay.push hcg hll hroom
        · intro t ht
          rcases List.mem_cons.1 ht with rfl | ht
          · refine ⟨fun i => ?_, by simp, by simp [initComp], by simp, by simp, by simp, by simp [initComp], rfl⟩
            dsimp only
            rw [below_fresh hpar hlab, mem_below]
            simp only [List.not_mem_nil, iff_false]
            rintro ⟨h1, h2⟩
            exact absurd (hI.core.anc_lt h1 h2) (by omega)
          · have hte := h.each t ht
            refine hte.congr (fun p hp => ?_) (below_fresh hpar hlab)
            have hpF := hte.mem_F hp
            dsimp only
            rw [Function.update_of_ne (by rintro rfl; exact hI.cur_F hpF), Function.update_of_ne (by rintro rfl; exact q3 hpF)]
        · refine h.fi.lists ?_ ?_ ?_
          · rintro t' ⟨x, hx, rfl⟩
            rcases List.mem_cons.1 hx with rfl | hx
            · exact .inl rfl
            · exact .inr ⟨_, ⟨x, hx, rfl⟩, rfl, rfl, List.prefix_refl _⟩
          · rintro t ⟨x, hx, rfl⟩
            exact ⟨_, ⟨x, List.mem_cons_of_mem _ hx, rfl⟩, rfl, rfl, List.prefix_refl _⟩
          · rintro a ⟨x, hx, rfl⟩ b ⟨y, hy, rfl⟩ i hia hib
            rcases List.mem_cons.1 hx with rfl | hx
            · simp [initComp] at hia
            · rcases List.mem_cons.1 hy with rfl | hy
              · simp [initComp] at hib
              · exact h.fi.inj _ ⟨x, hx, rfl⟩ _ ⟨y, hy, rfl⟩ i hia hib
        · have := h.count
          simp only [List.countP_cons]
          rw [if_pos (by simp [ownHist, initComp])]
          omega
      · simp only [hcap, and_false, if_false]
    · simp only [hgq, if_false] at hstep ⊢
      obtain ⟨cs', hI', -⟩ := hstep
      have hroom : (s.heap (E.P.gray q)).length + 1 ≤ histOf E.P (E.P.gray q) := by
        have := hI'.core.len_le (E.P.gray q)
        simpa using this
      rw [if_pos (haddr _ hqg hroom)]
      refine ⟨_, rfl, T, ?_⟩
      refine ⟨h.comps, h.cs, rfl, rfl, rfl, hdir1, hdirO1, h.lay.push hqg hll hroom, ?_, h.fi, h.count⟩
      intro t ht
      have hte := h.each t ht
      refine hte.congr (fun p hp => ?_) rfl
      dsimp only
      rw [Function.update_of_ne (by rintro rfl; exact q3 (hte.mem_F hp))]
  · have hv : ¬ v.dir q = 0 := by
      by_cases hp : q ∈ E.P.px
      · rw [h.dir q hp]; exact hc
      · exact h.dirO q hseen hp
    simp only [hc, hv, if_false]
    exact ⟨_, rfl, T, h.comps, h.cs, rfl, rfl, rfl, h.dir, h.dirO, h.lay, h.each, h.fi, h.count⟩

/-! ### The end of a tour -/

/-- The top component is complete at every level without waiting pixels. -/
theorem top_complete' {P : Patch} {cnt lab : Nat → Nat} {heap : Nat → List Nat} {c : Flood.Comp} {rest : List Flood.Comp}
    {regs : Nat → Flood.Reg} {nreg : Nat} {F : Finset Nat} {a m i g : Nat} (hP : P.OK)
    (h : Core P cnt lab heap (c :: rest) regs nreg F (fun _ => False) a m) (hg : c.gray ≤ g)
    (hh : ∀ k, c.gray ≤ k → k ≤ g → heap k = []) (hi : i ∈ below regs lab F c.region) : IsC P g (below regs lab F c.region) := by
  have hcm : c ∈ c :: rest := List.mem_cons_self
  have hcl : ∀ i ∈ F, Anc regs (lab i) c.region → ∀ j, P.adj i j → P.gray j ≤ g → j ∈ F ∧ Anc regs (lab j) c.region := by
    intro i h1 h2 j hj hgj
    rcases h.cs_closed c hcm i h1 h2 j hj with h3 | ⟨h3, h4⟩
    · exact h3
    · exfalso
      obtain ⟨k, k1, k2, k3⟩ := hj.2.2
      have hv := h.toured_F i h1 k k1 k2
      rw [k3] at hv
      rcases h.vis j hj.2.1 hv with h5 | h5 | h5
      · exact h3 h5
      · exact h5
      · rw [hh _ h4 hgj] at h5; simp at h5
  have hle : ∀ {i j}, LConn P.adj P.gray c.gray i j → LConn P.adj P.gray g i j := by
    intro i j hc
    induction hc with
    | refl => exact .refl
    | tail _ h1 ih => exact .tail ih ⟨h1.1, le_trans h1.2.1 hg, le_trans h1.2.2 hg⟩
  refine ⟨⟨i, hi⟩, fun i hi => ?_, fun i hi j hj => ?_⟩
  · rw [mem_below] at hi
    refine ⟨h.F_px i hi.1, ?_⟩
    have h1 := Anc.lt h.reg_parent (h.lab_ok i hi.1).1 hi.2
    have h2 := (h.lab_ok i hi.1).2
    have h3 := (h.cs_reg c hcm).2.1
    omega
  · rw [mem_below] at hi
    rw [mem_below]
    constructor
    · rintro ⟨h1, h2⟩
      exact hle ((h.cs_conn c hcm i hi.1 hi.2).trans ((h.cs_conn c hcm j h1 h2).symm hP.adj_symm))
    · intro hc
      clear hj
      induction hc with
      | refl => exact hi
      | tail _ h1 ih => exact hcl _ ih.1 ih.2 _ h1.1 h1.2.2

theorem scan_sim {mem : Nat → Option Nat} {top : Nat → Nat} {heap : Nat → List Nat} (hL : Lay3 (histOf E.P) mem top heap)
    (hin : ∀ l < 256, top l < E.area + 256) :
    ∀ n l, l + n ≤ 256 → scan E mem top n l = some (Flood.scan heap n l)
  | 0, l, _ => rfl
  | n + 1, l, hle => by
    have h1 := hin l (by omega)
    have h2 := hL.read (l := l) (by omega)
    simp only [scan, Flood.scan, h1, if_true, h2]
    cases hh : heap l with
    | nil => simpa using scan_sim hL hin n (l + 1) (by omega)
    | cons x xs => simp

theorem ownHist_congr {H H' : Nat → Hist} {c : Comp} (h : ∀ i, c.hist = some i → (H' i).val = (H i).val) :
    ownHist H' c = ownHist H c := by
  unfold ownHist
  cases hc : c.hist with
  | none => rfl
  | some i => simp only [h i hc]

theorem countP_congr' {H H' : Nat → Hist} {T : List Trip} (h : ∀ t ∈ T, ∀ i, t.1.hist = some i → (H' i).val = (H i).val) :
    T.countP (fun t => (ownHist H' t.1).isNone) = T.countP (fun t => (ownHist H t.1).isNone) := by
  refine List.countP_congr fun t ht => ?_
  rw [ownHist_congr (h t ht)]

theorem ins_diff {a : CL} {S : Set CL} (h : a ∉ S) : insert a S \ {a} = S := by
  ext x
  constructor
  · rintro ⟨rfl | hx, h2⟩
    · exact absurd rfl h2
    · exact hx
  · intro hx
    exact ⟨.inr hx, by rintro rfl; exact h hx⟩

theorem chain_join {next : Nat → Nat} {t hd : Nat} {l2 : List Nat} (h2 : l2.IsChain (fun a b => next a = b))
    (hh : l2.head? = some hd) (ht : t ∉ l2) : ∀ {l1 : List Nat}, l1.Nodup → l1.IsChain (fun a b => next a = b) →
    l1.getLast? = some t → (l1 ++ l2).IsChain (fun a b => update next t hd a = b)
  | [], _, _, hl => by simp at hl
  | [x], _, _, hl => by
    simp only [List.getLast?_singleton, Option.some.injEq] at hl
    subst hl
    have hc := chain_congr (next' := update next x hd) (fun p hp => Function.update_of_ne (by rintro rfl; exact ht hp) _ _) h2
    cases l2 with
    | nil => simp at hh
    | cons y l =>
      simp only [List.head?_cons, Option.some.injEq] at hh
      subst hh
      simp only [List.cons_append, List.nil_append]
      rw [List.isChain_cons_cons]
      exact ⟨by simp, hc⟩
  | x :: y :: l, hn, hc, hl => by
    rw [List.isChain_cons_cons] at hc
    rw [List.nodup_cons] at hn
    have hl' : (y :: l).getLast? = some t := by rw [List.getLast?_cons_cons] at hl; exact hl
    have hx : x ≠ t := by rintro rfl; exact hn.1 (List.mem_of_getLast? hl')
    have := chain_join h2 hh ht hn.2 hc.2 hl'
    simp only [List.cons_append] at this ⊢
    rw [List.isChain_cons_cons]
    exact ⟨by rw [Function.update_of_ne hx]; exact hc.1, this⟩

/-- `append`. -/
theorem append_spec {next : Nat → Nat} {c : Comp} {l : List Nat} {p : Nat} (hpos : ∀ q ∈ l, q ≠ 0) (hp : p ∉ l)
    (hnd : l.Nodup) (hlen : c.size = l.length) (hch : l.IsChain (fun a b => next a = b)) (hhd : l ≠ [] → l.head? = some c.head)
    (htl : l ≠ [] → l.getLast? = some c.tail) (ht0 : l = [] → c.tail = 0) :
    ∃ c' next', append p c next = (c', next') ∧ c'.hist = c.hist ∧ c'.gray = c.gray ∧ c'.size = (l ++ [p]).length ∧
      (l ++ [p]).IsChain (fun a b => next' a = b) ∧ (l ++ [p]).head? = some c'.head ∧ c'.tail = p ∧
      (∀ q, q ∉ l → next' q = next q) := by
  by_cases hl : l = []
  · have ht := ht0 hl
    subst hl
    unfold append
    rw [if_neg (by rw [ht]; simp)]
    exact ⟨_, _, rfl, rfl, rfl, by simp [hlen], by simp, rfl, rfl, fun _ _ => rfl⟩
  · have h1 := htl hl
    have hm := List.mem_of_getLast? h1
    unfold append
    rw [if_pos (hpos _ hm)]
    refine ⟨_, _, rfl, rfl, rfl, by simp [hlen], ?_, ?_, rfl, fun q hq => ?_⟩
    · exact chain_join (by simp) rfl (by simp only [List.mem_singleton]; rintro e; rw [e] at hm; exact hp hm) hnd hch h1
    · rw [List.head?_append, hhd hl]; rfl
    · exact Function.update_of_ne (by rintro rfl; exact hq hm) _ _

end Verif.OpenCv3
