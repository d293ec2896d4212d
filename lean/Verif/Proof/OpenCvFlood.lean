import Verif.Proof.OpenCvLists

/-!
# The OpenCV detector: the pass follows the flooding of V2

`Verif.Model.OpenCv` runs in lockstep with `Verif.Model.Flood`.
-/

namespace Verif.OpenCv

open Function (update)
open Verif.Flood (Patch scan below mem_below Core Anc)
open Verif.Spec (LConn)

/-- A component, the component of V2, and its points. -/
abbrev Trip := Comp × Flood.Comp × List Nat

/-- What holds of every delivered record: its points are pixels of a connected component `C` of the level `g`, at least one of which is
left out; if the level `from_` is lower than `g`, they are a whole component of that level. -/
structure RecOK (E : Env) (r : RecO) (S : List Nat) (g : Nat) (C : Finset Nat) : Prop where
  points : r.points = S.map (place E)
  nodup : S.Nodup
  comp : IsC E.P g C
  sub : ∀ i ∈ S, i ∈ C
  lt : S.length < C.card
  pos : 0 < S.length
  min : E.cfg.minPoint ≤ (S.length : Int)
  max : (S.length : Int) ≤ E.cfg.maxPoint
  from_le : r.from_ ≤ g
  from_comp : r.from_ < g → IsC E.P r.from_ S.toFinset
  gray : r.gray = if E.gm = 0 then g % 256 else 255 - g % 256
  rect : r.rect = rectOf r.points
  lt256 : g < 256

/-- What holds of one component. -/
structure Each (P : Patch) (v : St) (s : Flood.St) (F : Finset Nat) (pix : Nat → Nat) (t : Trip) : Prop where
  sim : CSim P v.pts pix v.npts v.hists v.nhist (below s.regs s.lab F t.2.1.region) t.1 t.2.2
  gray : t.1.gray = t.2.1.gray
  size : t.1.size = t.2.1.size

/-- A cell the pass looks at. -/
def Seen (P : Patch) (i : Nat) : Prop := i ∈ P.px ∨ ∃ j ∈ P.px, ∃ k, 1 ≤ k ∧ k ≤ P.nd ∧ P.nb j k = i

/-- A state of this detector and a state of V2. -/
structure Sim (E : Env) (v : St) (s : Flood.St) (F : Finset Nat) (T : List Trip) (pix : Nat → Nat) : Prop where
  comps : v.comps = T.map (·.1) ++ [initComp 256]
  cs : s.comps = T.map (·.2.1) ++ [Flood.sent]
  cur : v.cur = s.cur
  heap : v.heap = s.heap
  lvl : v.lvl = s.curGray
  vis : ∀ i, Seen E.P i → (v.vis i = false ↔ s.cnt i = 0)
  dir : ∀ i ∈ E.P.px, i ≠ s.cur → s.cnt i ≠ 0 → s.cnt i = v.dir i + 1
  dir0 : ∀ i ∈ E.P.px, s.cnt i = 0 → v.dir i = 0
  nbr : s.nbr = v.dir s.cur + 1
  each : ∀ t ∈ T, Each E.P v s F pix t
  hne : T.Pairwise (fun a b => ∀ i, a.1.hist = some i → b.1.hist ≠ some i)
  hi : HistI v.hists v.nhist
  nh : v.nhist ≤ F.card
  npts : v.npts = F.card
  place : ∀ p < v.npts, ((v.pts p).x, (v.pts p).y) = place E (pix p)
  out : ∀ r ∈ v.out, ∃ S g C, RecOK E r S g C

/-- What the caller guarantees. -/
structure EnvOK (E : Env) : Prop where
  ok : E.P.OK
  gray : ∀ i ∈ E.P.px, E.P.gray i < 256
  area : E.area = E.P.px.card
  gap : E.gap < 32

variable {E : Env} {v : St} {s : Flood.St} {F : Finset Nat} {T : List Trip} {pix : Nat → Nat} {cs : List Flood.Comp}

theorem sim_init {vis : Nat → Bool} (H : Nat → Hist) (pts : Nat → LPoint)
    (hvis : ∀ i, Seen E.P i → (vis i = false ↔ i ∈ E.P.px)) (hP : E.P.OK) :
    Sim E (init E.P vis H pts) (Flood.init E.P) ∅
      [(initComp (E.P.gray E.P.start), { region := 0, gray := E.P.gray E.P.start, size := 0 }, [])] (fun _ => 0) := by
  refine ⟨rfl, rfl, rfl, rfl, rfl, ?_, ?_, ?_, rfl, ?_, by simp, ?_, by simp [init], by simp [init], ?_, by simp [init]⟩
  · intro i hs
    by_cases e : i = E.P.start
    · subst e; simp [init, Flood.init]
    · simp only [init, Flood.init, Function.update_of_ne e, hvis i hs]
      by_cases h : i ∈ E.P.px <;> simp [h]
  · intro i hi hne hc
    simp only [Flood.init] at hc hne
    rw [Function.update_of_ne hne] at hc
    simp [hi] at hc
  · intro i _ _; rfl
  · intro t ht
    simp only [List.mem_singleton] at ht
    subst ht
    refine ⟨⟨by simp, by simp, ?_, rfl, by simp, by simp, by simp, by simp [initComp], by simp [initComp]⟩, rfl, rfl⟩
    intro i; simp [below]
  · refine ⟨fun k hk => ?_, fun k hk => ?_⟩ <;> (simp only [init] at hk; omega)
  · intro p hp; simp only [init] at hp; omega

theorem Each.congr {s' : Flood.St} {v' : St} {F' : Finset Nat} {pix' : Nat → Nat} {t : Trip} (h : Each E.P v s F pix t)
    (hpts : ∀ p ∈ t.2.2, (v'.pts p).next = (v.pts p).next) (hpix : ∀ p ∈ t.2.2, pix' p = pix p) (hn : v.npts ≤ v'.npts)
    (hH : ∀ i, t.1.hist = some i → (v'.hists i).child = (v.hists i).child ∧ (v'.hists i).gray = (v.hists i).gray ∧
      (v'.hists i).size = (v.hists i).size)
    (hnh : v.nhist ≤ v'.nhist) (hB : below s'.regs s'.lab F' t.2.1.region = below s.regs s.lab F t.2.1.region) :
    Each E.P v' s' F' pix' t :=
  ⟨h.sim.congr hpts hpix hn hH hnh hB, h.gray, h.size⟩

theorem Sim.lens (h : Sim E v s F T pix) : v.comps.length = s.comps.length := by
  rw [h.comps, h.cs]; simp

theorem Sim.cs_eq (h : Sim E v s F T pix) (hI : Flood.Inv E.P s cs F) : cs = T.map (·.2.1) := by
  have h1 := hI.comps
  rw [h.cs] at h1
  exact (List.append_inj_left' h1 rfl).symm

theorem sim_tour (hI : Flood.Inv E.P s cs F) (hn : s.nbr ≤ E.P.nd) (h : Sim E v s F T pix) :
    match Flood.tour E.P s with
    | .next s' => ∃ v', tour E.P v = .next v' ∧ ∃ T', Sim E v' s' F T' pix
    | .done _ => False
    | .ub => tour E.P v = .ub := by
  have hcur := h.cur
  have hd : v.dir s.cur + 1 = s.nbr := h.nbr.symm
  have hg : E.P.gray s.cur = v.lvl := by rw [h.lvl]; exact hI.cur_gray
  have hlen := h.lens
  have hseen : Seen E.P (E.P.nb s.cur s.nbr) := .inr ⟨s.cur, hI.cur_px, s.nbr, hI.nbr_pos, hn, rfl⟩
  unfold Flood.tour tour
  simp only [hd, hcur]
  generalize hq : E.P.nb s.cur s.nbr = q at hseen
  by_cases hc : s.cnt q = 0
  · obtain ⟨q1, q2, q3, q4, q5⟩ := hI.unvisited hn (by rw [hq]; exact hc)
    rw [hq] at q1 q2 q3 q4 q5
    have hv : v.vis q = false := (h.vis q hseen).2 hc
    have hvis' : ∀ (f : Nat → Nat), (∀ i, f i = 0 ↔ update s.cnt q 1 i = 0) →
        ∀ i, Seen E.P i → (update v.vis q true i = false ↔ f i = 0) := by
      intro f hf i hs
      rw [hf]
      by_cases e : i = q
      · subst e; simp
      · rw [Function.update_of_ne e, Function.update_of_ne e]; exact h.vis i hs
    have hlt : (E.P.gray q < E.P.gray s.cur) ↔ E.P.gray q < s.curGray := by rw [hI.cur_gray]
    simp only [hc, hv, if_true]
    by_cases hgq : E.P.gray q < s.curGray
    · simp only [hgq, hlt.2 hgq, if_true, hlen]
      by_cases hcap : s.comps.length < E.P.cap
      · simp only [hcap, if_true]
        refine ⟨_, rfl, (initComp (E.P.gray q), { region := s.nreg, gray := E.P.gray q, size := 0 }, []) :: T, ?_⟩
        have hpar : ∀ a < s.nreg, ∀ b, (s.regs a).parent = some b → b < s.nreg :=
          fun a ha b hb => (hI.core.reg_parent a ha b hb).1
        have hlab : ∀ i ∈ F, s.lab i < s.nreg := fun i hi => (hI.core.lab_ok i hi).1
        refine ⟨?_, ?_, rfl, ?_, ?_, ?_, ?_, ?_, ?_, ?_, ?_, h.hi, h.nh, h.npts, h.place, h.out⟩
        · simp [h.comps]
        · simp [h.cs]
        · dsimp only; rw [h.heap, h.lvl]
        · dsimp only; rw [hg]; omega
        · refine hvis' _ (fun i => ?_)
          dsimp only
          by_cases e : i = s.cur
          · subst e; simp [Function.update_of_ne (Ne.symm q4), hI.cnt_cur]
          · rw [Function.update_of_ne e]
        · dsimp only
          intro i hi hne hci
          by_cases e : i = s.cur
          · subst e; simp
          · rw [Function.update_of_ne e, Function.update_of_ne hne] at hci ⊢
            rw [Function.update_of_ne e]; exact h.dir i hi e hci
        · dsimp only
          intro i hi hci
          by_cases e : i = s.cur
          · subst e; simp at hci
          · rw [Function.update_of_ne e] at hci ⊢
            by_cases e' : i = q
            · subst e'; simp at hci
            · rw [Function.update_of_ne e'] at hci; exact h.dir0 i hi hci
        · dsimp only
          rw [Function.update_of_ne q4, h.dir0 q q1 hc]
        · intro t ht
          rcases List.mem_cons.1 ht with rfl | ht
          · refine ⟨⟨by simp, by simp, ?_, rfl, by simp, by simp, by simp, by simp [initComp], by simp [initComp]⟩, rfl, rfl⟩
            intro i
            simp only [List.not_mem_nil, false_and, exists_false, iff_false]
            rw [below_fresh hpar hlab, mem_below]
            rintro ⟨h1, h2⟩
            exact absurd (hI.core.anc_lt h1 h2) (by omega)
          · refine (h.each t ht).congr (fun _ _ => rfl) (fun _ _ => rfl) (le_refl _) (fun _ _ => ⟨rfl, rfl, rfl⟩) (le_refl _) ?_
            exact below_fresh hpar hlab
        · rw [List.pairwise_cons]
          exact ⟨fun t _ i hi => by simp [initComp] at hi, h.hne⟩
      · simp only [hcap, if_false]
    · have hgq' : ¬ E.P.gray q < E.P.gray s.cur := by rw [hlt]; exact hgq
      simp only [hgq, hgq', if_false]
      refine ⟨_, rfl, T, ?_⟩
      have hl : v.lvl + E.P.gray q - E.P.gray s.cur = E.P.gray q := by rw [hg]; omega
      rw [hl]
      refine ⟨h.comps, h.cs, rfl, ?_, h.lvl, ?_, ?_, ?_, ?_, ?_, h.hne, h.hi, h.nh, h.npts, h.place, h.out⟩
      · dsimp only; rw [h.heap]
      · exact hvis' _ (fun i => Iff.rfl)
      · dsimp only
        intro i hi hne hci
        rw [Function.update_of_ne hne]
        by_cases e : i = q
        · subst e; rw [Function.update_self, h.dir0 i q1 hc]
        · rw [Function.update_of_ne e] at hci ⊢; exact h.dir i hi hne hci
      · dsimp only
        intro i hi hci
        have e : i ≠ q := by rintro rfl; simp at hci
        rw [Function.update_of_ne e] at hci
        have e' : i ≠ s.cur := by rintro rfl; exact hI.cnt_cur hci
        rw [Function.update_of_ne e']; exact h.dir0 i hi hci
      · dsimp only; rw [Function.update_self]
      · intro t ht
        exact (h.each t ht).congr (fun _ _ => rfl) (fun _ _ => rfl) (le_refl _) (fun _ _ => ⟨rfl, rfl, rfl⟩) (le_refl _) rfl
  · have hv : ¬ v.vis q = false := fun e => hc ((h.vis q hseen).1 e)
    simp only [hc, hv, if_false]
    refine ⟨_, rfl, T, ?_⟩
    refine ⟨h.comps, h.cs, rfl, h.heap, h.lvl, h.vis, ?_, ?_, ?_, ?_, h.hne, h.hi, h.nh, h.npts, h.place, h.out⟩
    · dsimp only
      intro i hi hne hci
      rw [Function.update_of_ne hne]; exact h.dir i hi hne hci
    · dsimp only
      intro i hi hci
      have e' : i ≠ s.cur := by rintro rfl; exact hI.cnt_cur hci
      rw [Function.update_of_ne e']; exact h.dir0 i hi hci
    · dsimp only; rw [Function.update_self]
    · intro t ht
      exact (h.each t ht).congr (fun _ _ => rfl) (fun _ _ => rfl) (le_refl _) (fun _ _ => ⟨rfl, rfl, rfl⟩) (le_refl _) rfl

/-- The parts of `Sim` about visited cells after the current pixel is finished and `p` is taken from the heap. -/
theorem Sim.move (h : Sim E v s F T pix) (hI : Flood.Inv E.P s cs F) {l p : Nat} (hp : p ∈ s.heap l) :
    (∀ i, Seen E.P i → (v.vis i = false ↔ update s.cnt s.cur s.nbr i = 0)) ∧
    (∀ i ∈ E.P.px, i ≠ p → update s.cnt s.cur s.nbr i ≠ 0 → update s.cnt s.cur s.nbr i = v.dir i + 1) ∧
    (∀ i ∈ E.P.px, update s.cnt s.cur s.nbr i = 0 → v.dir i = 0) ∧
    update s.cnt s.cur s.nbr p = v.dir p + 1 := by
  obtain ⟨p1, p2, p3, p4, p5⟩ := hI.core.heap_ok l p hp
  have hnb := hI.nbr_pos
  have hcc := hI.cnt_cur
  refine ⟨?_, ?_, ?_, ?_⟩
  · intro i hs
    rw [h.vis i hs]
    by_cases e : i = s.cur
    · subst e; rw [Function.update_self]; omega
    · rw [Function.update_of_ne e]
  · intro i hi hne hc
    by_cases e : i = s.cur
    · subst e; rw [Function.update_self]; exact h.nbr
    · rw [Function.update_of_ne e] at hc ⊢; exact h.dir i hi e hc
  · intro i hi hc
    by_cases e : i = s.cur
    · subst e; rw [Function.update_self] at hc; omega
    · rw [Function.update_of_ne e] at hc; exact h.dir0 i hi hc
  · rw [Function.update_of_ne p5]; exact h.dir p p1 p5 p3

/-- Stability test and record of a complete component, and its new history. -/
theorem raise_some {pts : Nat → LPoint} {npts : Nat} {H : Nat → Hist} {n : Nat} {B : Finset Nat} {c : Comp} {l : List Nat}
    {out : List RecO} (hE : EnvOK E) (h : CSim E.P pts pix npts H n B c l) (hC : IsC E.P c.gray B) (hi : HistI H n) {g : Nat}
    (hg : c.gray < g) (h256 : g < 256) (hn : n < E.area) (hlt : ∀ i, c.hist = some i → (H i).size < c.size)
    (hpl : ∀ p ∈ l, ((pts p).x, (pts p).y) = place E (pix p)) (hout : ∀ r ∈ out, ∃ S g C, RecOK E r S g C) :
    ∃ c' H' out', raise E g c H n pts out = some (c', H', out') ∧ c'.gray = g ∧ c'.size = c.size ∧ c'.hist = some n ∧
      HistI H' (n + 1) ∧ CSim E.P pts pix npts H' (n + 1) B c' l ∧ (∀ r ∈ out', ∃ S g C, RecOK E r S g C) ∧
      (∀ k, c.hist ≠ some k → k ≠ n →
        (H' k).child = (H k).child ∧ (H' k).gray = (H k).gray ∧ (H' k).size = (H k).size) := by
  obtain ⟨b, c1, H1, e1, e2, e3, e4, e5⟩ := isStable_some (cfg := E.cfg) hi c h.hlt
  have h1 := h.same e3 e4
  have hC1 : IsC E.P c1.gray B := by rw [e3.gray]; exact hC
  obtain ⟨h2, h3⟩ := h1.newHist hC1 e2 g (by rw [e3.gray]; exact hg)
  have hnew : ∀ k, c.hist ≠ some k → k ≠ n → ((newHistory c1 H1 n).2 k).child = (H k).child ∧
      ((newHistory c1 H1 n).2 k).gray = (H k).gray ∧ ((newHistory c1 H1 n).2 k).size = (H k).size := by
    intro k k1 k2
    simp only [newHistory]
    rw [Function.update_of_ne k2]
    unfold setChild
    cases hh : c1.hist with
    | none => exact e4 k
    | some i =>
      have : k ≠ i := by rintro rfl; exact k1 (by rw [← e3.hist]; exact hh)
      simp only
      rw [Function.update_of_ne this]; exact e4 k
  unfold raise
  rw [if_pos hn, e1]
  simp only [Option.bind_some]
  by_cases hb : b = true
  · rw [if_pos hb]
    obtain ⟨i, i1, i2, i3⟩ := e5 hb
    obtain ⟨j1, j2, j3, j4⟩ := h.hist i i1
    have hB := h.card
    have hlne : l ≠ [] := by rintro rfl; simp at j2; omega
    have hH1 := e4 i
    have hrec : toInfo E.gm c1 H1 pts = some
        { gray := if E.gm = 0 then c.gray % 256 else 255 - c.gray % 256
          points := (l.take (H i).size).map fun p => ((pts p).x, (pts p).y)
          rect := rectOf ((l.take (H i).size).map fun p => ((pts p).x, (pts p).y))
          from_ := (H i).gray } := by
      unfold toInfo
      rw [e3.hist, i1]
      simp only
      rw [e3.head, h.head hlne, hH1.2.2, hH1.2.1, readPts_eq l _ h.chain j2, e3.gray]
      rfl
    rw [hrec]
    simp only [Option.map_some, Option.bind_some]
    refine ⟨_, _, _, rfl, rfl, e3.size, rfl, h2, h3, ?_, hnew⟩
    intro r hr
    rcases List.mem_append.1 hr with hr | hr
    · exact hout r hr
    · simp only [List.mem_singleton] at hr
      subst hr
      have hlen : ((l.take (H i).size).map pix).length = (H i).size := by
        rw [List.length_map, List.length_take]; omega
      refine ⟨(l.take (H i).size).map pix, c.gray, B, ?_, ?_, hC, ?_, ?_, ?_, ?_, ?_, j3, ?_, rfl, rfl, by omega⟩
      · dsimp only
        rw [List.map_map]
        refine List.map_congr_left fun p hp => ?_
        exact hpl p (List.mem_of_mem_take hp)
      · rw [List.map_take]
        exact h.nodup.sublist (List.take_sublist _ _)
      · intro j hj
        rw [hB.1]
        rw [List.map_take] at hj
        simpa using List.mem_of_mem_take hj
      · rw [hlen, hB.2]; exact hlt i i1
      · rw [hlen]; exact j1
      · rw [hlen]; exact i2
      · rw [hlen]; exact i3
      · exact j4
  · rw [if_neg hb]
    simp only [Option.bind_some]
    exact ⟨_, _, _, rfl, rfl, e3.size, rfl, h2, h3, hout, hnew⟩

theorem scan_255 {heap : Nat → List Nat} (h : heap 256 = []) (g : Nat) (hg : g < 256) :
    scan heap (255 - g) (g + 1) = scan heap (256 - g) (g + 1) := by
  have key : ∀ n l, l + n = 256 → scan heap n l = scan heap (n + 1) l := by
    intro n
    induction n with
    | zero =>
      intro l hl
      have : l = 256 := by omega
      subst this
      simp [scan, h]
    | succ n ih =>
      intro l hl
      conv_lhs => rw [scan]
      conv_rhs => rw [scan]
      rw [ih (l + 1) (by omega)]
  rw [key (255 - g) (g + 1) (by omega), show 255 - g + 1 = 256 - g by omega]

theorem sim_finish (hE : EnvOK E) (hI : Flood.Inv E.P s cs F) (hn : ¬ s.nbr ≤ E.P.nd) (h : Sim E v s F T pix) :
    match Flood.finish s with
    | .next s' => ∃ v', finish E v = .next v' ∧ ∃ T' pix', Sim E v' s' (insert s.cur F) T' pix'
    | .done _ => ∃ v', finish E v = .done v' ∧ ∀ r ∈ v'.out, ∃ S g C, RecOK E r S g C
    | .ub => True := by
  have hP := hE.ok
  have hcs := h.cs_eq hI
  obtain ⟨c, rest, hcs', htop⟩ := hI.core.cs_top
  rw [hcs'] at hcs
  obtain ⟨tc, T0, hT, htc, hrest⟩ := List.map_eq_cons_iff.1 hcs.symm
  subst hT
  obtain ⟨vc, c0, lc⟩ := tc
  dsimp only at htc
  subst htc
  subst hcs'
  obtain ⟨d, rest', hd⟩ : ∃ d rest', rest ++ [Flood.sent] = d :: rest' := by
    cases rest with
    | nil => exact ⟨_, _, rfl⟩
    | cons d r => exact ⟨_, _, rfl⟩
  have hcomps : s.comps = c0 :: d :: rest' := by rw [hI.comps]; simp [hd]
  obtain ⟨vd, vt, hvd⟩ : ∃ vd vt, T0.map (·.1) ++ [initComp 256] = vd :: vt := by
    cases T0 with
    | nil => exact ⟨_, _, rfl⟩
    | cons d r => exact ⟨_, _, rfl⟩
  have hvcomps : v.comps = vc :: vd :: vt := by rw [h.comps]; simp [hvd]
  have hcur := h.cur
  have hEc := h.each (vc, c0, lc) List.mem_cons_self
  have hcurB : s.cur ∉ below s.regs s.lab F c0.region := fun hc => hI.cur_F (mem_below.1 hc).1
  obtain ⟨c', pts', hacc, hc'g, hc's, hc'h, hadd, hk1, hk2, hk3⟩ := hEc.sim.add hcurB (place E s.cur).1 (place E s.cur).2
  have hFlt : F.card < E.P.px.card := by
    refine Finset.card_lt_card ⟨fun i hi => hI.core.F_px i hi, fun hs => hI.cur_F (hs hI.cur_px)⟩
  have hnpl : v.npts < E.area := by rw [h.npts, hE.area]; exact hFlt
  have hnhl : v.nhist < E.area := by have := h.nh; rw [hE.area]; omega
  have hcard : (insert s.cur F).card = F.card + 1 := Finset.card_insert_of_notMem hI.cur_F
  have hgc : E.P.gray s.cur = s.curGray := hI.cur_gray
  have hroot : (s.regs c0.region).parent = none := (hI.core.cs_reg c0 (by simp)).2.2.2
  have hmem0 : ∀ t ∈ T0, t.2.1 ∈ rest := by
    intro t ht; rw [← hrest]; exact List.mem_map_of_mem ht
  have hrootT : ∀ t ∈ T0, (s.regs t.2.1.region).parent = none ∧ t.2.1.region ≠ c0.region := by
    intro t ht
    have hm : t.2.1 ∈ c0 :: rest := List.mem_cons_of_mem _ (hmem0 t ht)
    refine ⟨(hI.core.cs_reg _ hm).2.2.2, fun e => ?_⟩
    have he := hI.core.comp_inj hm List.mem_cons_self e
    have hs := hI.core.cs_sorted
    rw [List.pairwise_cons] at hs
    have := hs.1 _ (hmem0 t ht)
    rw [he] at this; omega
  have hblc : below s.regs (update s.lab s.cur c0.region) (insert s.cur F) c0.region = insert s.cur (below s.regs s.lab F c0.region) := by
    rw [below_label hI.cur_F hroot, if_pos rfl]
  have hblt : ∀ t ∈ T0, below s.regs (update s.lab s.cur c0.region) (insert s.cur F) t.2.1.region =
      below s.regs s.lab F t.2.1.region := by
    intro t ht
    rw [below_label hI.cur_F hroot, if_neg (hrootT t ht).2]
  -- the points of the other components are untouched
  have hoth : ∀ t ∈ T0, ∀ p ∈ t.2.2, p ∉ lc ∧ p ≠ v.npts := by
    intro t ht p hp
    have ht' := (h.each t (List.mem_cons_of_mem _ ht)).sim
    refine ⟨fun hc => ?_, fun e => absurd (ht'.lt p hp) (by omega)⟩
    have h1 := (ht'.set (pix p)).2 ⟨p, hp, rfl⟩
    have h2 := (hEc.sim.set (pix p)).2 ⟨p, hc, rfl⟩
    exact below_disjoint hroot (hrootT t ht).1 (Ne.symm (hrootT t ht).2) h2 h1
  have hpix' : ∀ p, p ≠ v.npts → update pix v.npts s.cur p = pix p := fun p hp => Function.update_of_ne hp _ _
  have hplace' : ∀ p < v.npts + 1, ((pts' p).x, (pts' p).y) = place E (update pix v.npts s.cur p) := by
    intro p hp
    by_cases e : p = v.npts
    · subst e; rw [hk2]; simp
    · rw [hpix' p e, (hk3 p e).1, (hk3 p e).2]; exact h.place p (by omega)
  have hne0 := h.hne
  rw [List.pairwise_cons] at hne0
  -- the state of the other components after the pixel is added
  have hEt : ∀ t ∈ T0, CSim E.P pts' (update pix v.npts s.cur) (v.npts + 1) v.hists v.nhist
      (below s.regs (update s.lab s.cur c0.region) (insert s.cur F) t.2.1.region) t.1 t.2.2 := by
    intro t ht
    refine (h.each t (List.mem_cons_of_mem _ ht)).sim.congr (fun p hp => ?_) (fun p hp => hpix' p (hoth t ht p hp).2) (by omega)
      (fun _ _ => ⟨rfl, rfl, rfl⟩) (le_refl _) (hblt t ht)
    rw [hk1 p (hoth t ht p hp).1 (hoth t ht p hp).2]
  have hl := hI.label hP hn
  unfold Flood.finish finish
  rw [hcomps, hvcomps]
  simp only [hcur]
  rw [if_pos ⟨hE.gap, hnpl⟩, hacc]
  simp only
  rw [h.lvl, h.heap]
  rw [← hblc] at hadd
  cases hh : s.heap s.curGray with
  | cons p ps =>
    simp only
    obtain ⟨m1, m2, m3, m4⟩ := h.move hI (l := s.curGray) (p := p) (by rw [hh]; simp)
    refine ⟨_, rfl, (c', { c0 with size := c0.size + 1 }, lc ++ [v.npts]) :: T0, update pix v.npts s.cur, ?_⟩
    refine ⟨?_, ?_, rfl, rfl, rfl, m1, m2, m3, m4, ?_, ?_, h.hi, ?_, ?_, hplace', h.out⟩
    · simp [hvd]
    · simp [hrest, hd]
    · intro t ht
      rcases List.mem_cons.1 ht with rfl | ht
      · exact ⟨hadd, by rw [hc'g]; exact hEc.gray, by rw [hc's, hEc.size]⟩
      · exact ⟨hEt t ht, (h.each t (List.mem_cons_of_mem _ ht)).gray, (h.each t (List.mem_cons_of_mem _ ht)).size⟩
    · rw [List.pairwise_cons]
      refine ⟨fun t ht i hi => hne0.1 t ht i ?_, hne0.2⟩
      rw [← hc'h]; exact hi
    · dsimp only; have := h.nh; omega
    · dsimp only; have := h.npts; omega
  | nil =>
    simp only
    have hgl : s.curGray < 256 := by rw [← hgc]; exact hE.gray _ hI.cur_px
    have h256 : s.heap 256 = [] := by
      by_contra hne
      obtain ⟨j, hj⟩ := List.exists_mem_of_ne_nil _ hne
      obtain ⟨j1, j2, -⟩ := hI.core.heap_ok 256 j hj
      have := hE.gray j j1; omega
    rw [hgc, scan_255 h256 _ hgl]
    cases hsc : scan s.heap (256 - s.curGray) (s.curGray + 1) with
    | none =>
      simp only
      exact ⟨_, rfl, h.out⟩
    | some l =>
      simp only
      obtain ⟨l1, l2, l3, l4⟩ := Flood.scan_some hsc
      have hl256 : l < 256 := by
        obtain ⟨j, hj⟩ := List.exists_mem_of_ne_nil _ l3
        obtain ⟨j1, j2, -⟩ := hI.core.heap_ok l j hj
        have := hE.gray j j1; omega
      cases hhl : s.heap l with
      | nil => exact absurd hhl l3
      | cons p ps =>
        simp only
        obtain ⟨m1, m2, m3, m4⟩ := h.move hI (l := l) (p := p) (by rw [hhl]; simp)
        have hC : IsC E.P c0.gray (below s.regs (update s.lab s.cur c0.region) (insert s.cur F) c0.region) := by
          refine top_complete (c := { c0 with size := c0.size + 1 }) (i := s.cur) hP hl (by dsimp only; rw [htop]; exact hh) ?_
          dsimp only
          rw [hblc]; exact Finset.mem_insert_self _ _
        have hC' : IsC E.P c'.gray (below s.regs (update s.lab s.cur c0.region) (insert s.cur F) c0.region) := by
          rw [hc'g, hEc.gray]; exact hC
        -- storing the size does not change the regions
        generalize hreg2 : update s.regs c0.region { s.regs c0.region with size := c0.size + 1 } = regs2
        have hpar2 : ∀ r, (regs2 r).parent = (s.regs r).parent := by
          intro r; rw [← hreg2]
          by_cases e : r = c0.region
          · subst e; simp
          · rw [Function.update_of_ne e]
        have hbl2 : ∀ r, below regs2 (update s.lab s.cur c0.region) (insert s.cur F) r =
            below s.regs (update s.lab s.cur c0.region) (insert s.cur F) r := below_congr hpar2
        have hparn : ∀ a < s.nreg, ∀ b, (regs2 a).parent = some b → b < s.nreg :=
          fun a ha b hb => (hI.core.reg_parent a ha b (by rw [← hpar2]; exact hb)).1
        have hlabn : ∀ i ∈ insert s.cur F, update s.lab s.cur c0.region i < s.nreg :=
          fun i hi => (hl.lab_ok i hi).1
        by_cases hT0 : ∃ td T1, T0 = td :: T1
        · obtain ⟨⟨vd0, d0, ld⟩, T1, rfl⟩ := hT0
          obtain ⟨rfl, rfl⟩ : vd0 = vd ∧ T1.map (·.1) ++ [initComp 256] = vt := by simpa using hvd
          obtain ⟨rest1, hr1, hr2⟩ : ∃ rest1, rest = d0 :: rest1 ∧ T1.map (·.2.1) = rest1 := ⟨_, hrest.symm, rfl⟩
          subst hr1
          obtain ⟨rfl, rfl⟩ : d0 = d ∧ rest1 ++ [Flood.sent] = rest' := by simpa using hd
          have hEd := h.each (vd0, d0, ld) (by simp)
          have hvdg : vd0.gray = d0.gray := hEd.gray
          have hlt0 : s.curGray < d0.gray := by
            have hs := hI.core.cs_sorted
            rw [List.pairwise_cons] at hs
            rw [← htop]; exact hs.1 d0 (by simp)
          rw [hvdg]
          by_cases hld : l < d0.gray
          · simp only [hld, if_true]
            obtain ⟨c2, H2, out2, r1, r2, r3, r4, r5, r6, r7, r8⟩ := raise_some (out := v.out) (g := l) hE hadd hC' h.hi
              (by rw [hc'g, hEc.gray, htop]; omega) hl256 hnhl (fun i hi => by
                have := (hEc.sim.hist i (by rw [← hc'h]; exact hi)).2.1
                rw [hEc.sim.len] at this; rw [hc's]; exact Nat.lt_succ_of_le this)
              (fun p hp => hplace' p (hadd.lt p hp)) h.out
            rw [r1]
            simp only
            refine ⟨_, rfl, (c2, (Flood.raise l { c0 with size := c0.size + 1 } regs2 s.nreg).1, lc ++ [v.npts]) ::
              (vd0, d0, ld) :: T1, update pix v.npts s.cur, ?_⟩
            have hbr : ∀ r, below (Flood.raise l { c0 with size := c0.size + 1 } regs2 s.nreg).2.1
                (update s.lab s.cur c0.region) (insert s.cur F) r = if r = s.nreg then
                  below regs2 (update s.lab s.cur c0.region) (insert s.cur F) s.nreg ∪
                  below regs2 (update s.lab s.cur c0.region) (insert s.cur F) c0.region
                else below regs2 (update s.lab s.cur c0.region) (insert s.cur F) r := by
              intro r
              have hcn : c0.region < s.nreg := (hI.core.cs_reg c0 (by simp)).1
              refine below_link hparn hlabn (by rw [hpar2]; exact hroot) ?_ ?_ ?_
              · intro x hx hxc
                simp only [Flood.raise, Flood.setParent]
                rw [Function.update_of_ne (by omega), Function.update_of_ne hxc]
              · simp only [Flood.raise, Flood.setParent]
                rw [Function.update_of_ne (by omega), Function.update_self]
              · simp [Flood.raise]
            have hnone : below regs2 (update s.lab s.cur c0.region) (insert s.cur F) s.nreg = ∅ := by
              rw [hbl2]
              ext i
              simp only [Finset.notMem_empty, iff_false]
              intro hi
              rw [mem_below] at hi
              exact absurd (hl.anc_lt hi.1 hi.2) (by omega)
            refine ⟨?_, ?_, rfl, rfl, rfl, m1, m2, m3, m4, ?_, ?_, r5, ?_, ?_, hplace', r7⟩
            · simp
            · simp [hr2, Flood.raise]
            · intro t ht
              rcases List.mem_cons.1 ht with rfl | ht
              · refine ⟨?_, r2, by rw [r3, hc's, hEc.size]; rfl⟩
                have e : below (Flood.raise l { c0 with size := c0.size + 1 } regs2 s.nreg).2.1
                    (update s.lab s.cur c0.region) (insert s.cur F) s.nreg =
                    below s.regs (update s.lab s.cur c0.region) (insert s.cur F) c0.region := by
                  rw [hbr, if_pos rfl, hnone, Finset.empty_union, hbl2]
                exact r6.congr (fun _ _ => rfl) (fun _ _ => rfl) (le_refl _) (fun _ _ => ⟨rfl, rfl, rfl⟩) (le_refl _) e
              · have hte := h.each t (List.mem_cons_of_mem _ ht)
                refine ⟨?_, hte.gray, hte.size⟩
                have hm : t.2.1 ∈ c0 :: d0 :: rest1 := List.mem_cons_of_mem _ (hmem0 t ht)
                have htn : t.2.1.region ≠ s.nreg := by have := (hI.core.cs_reg _ hm).1; omega
                refine (hEt t ht).congr (fun _ _ => rfl) (fun _ _ => rfl) (le_refl _) (fun k hk => ?_) (by dsimp only; omega) ?_
                · refine r8 k (fun hc => ?_) ?_
                  · exact hne0.1 t ht k (by rw [← hc'h]; exact hc) hk
                  · have := (hte.sim.hlt k hk).1; omega
                · dsimp only
                  rw [hbr, if_neg htn, hbl2]
            · rw [List.pairwise_cons]
              refine ⟨fun t ht i hi => ?_, hne0.2⟩
              dsimp only at hi
              rw [r4] at hi
              obtain rfl := Option.some.inj hi
              intro hc
              have := ((h.each t (List.mem_cons_of_mem _ ht)).sim.hlt _ hc).1
              omega
            · dsimp only; have := h.nh; omega
            · dsimp only; have := h.npts; omega
          · simp only [hld, if_false]
            have hdl : d0.gray = l := by
              have h1 := hI.core.cs_wait d0 (by simp)
              by_contra hne
              exact h1 (l4 _ (by omega) (by omega))
            subst hdl
            have hdd : (vd0, d0, ld) ∈ (vd0, d0, ld) :: T1 := List.mem_cons_self
            have hcd : c0.region ≠ d0.region := Ne.symm (hrootT _ hdd).2
            obtain ⟨e, H2, pts2, le, q1, q2, q3, q4, q5, q6, q7, q8, q9⟩ := CSim.merge hadd (hEt _ hdd) hC'
              (fun i hi => below_disjoint hroot (hrootT _ hdd).1 hcd hi) h.hi
              (by rw [hc'g, hEc.gray, hvdg]; dsimp only; omega)
            have hml : mergeLoop E d0.gray c' (vd0 :: (T1.map (·.1) ++ [initComp 256])) v.hists v.nhist pts' v.out
                = some ⟨e :: (T1.map (·.1) ++ [initComp 256]), H2, v.nhist + 1, pts2, v.out⟩ := by
              unfold mergeLoop
              rw [if_pos hnhl, q1]
              simp only [Option.bind_some]
              rw [if_pos (by rw [q2, hvdg])]
            have hmf : Flood.mergeLoop d0.gray { c0 with size := c0.size + 1 } (d0 :: (rest1 ++ [Flood.sent])) regs2 s.nreg
                = some ⟨{ d0 with size := d0.size + (c0.size + 1) } :: (rest1 ++ [Flood.sent]),
                    Flood.setParent regs2 c0.region d0.region, s.nreg⟩ := by
              unfold Flood.mergeLoop; simp
            rw [hml, hmf]
            simp only
            refine ⟨_, rfl, (e, { d0 with size := d0.size + (c0.size + 1) }, le) :: T1, update pix v.npts s.cur, ?_⟩
            have hbr : ∀ r, below (Flood.setParent regs2 c0.region d0.region)
                (update s.lab s.cur c0.region) (insert s.cur F) r = if r = d0.region then
                  below regs2 (update s.lab s.cur c0.region) (insert s.cur F) d0.region ∪
                  below regs2 (update s.lab s.cur c0.region) (insert s.cur F) c0.region
                else below regs2 (update s.lab s.cur c0.region) (insert s.cur F) r := by
              intro r
              refine below_link hparn hlabn (by rw [hpar2]; exact hroot) ?_ ?_ ?_
              · intro x hx hxc
                simp only [Flood.setParent]
                rw [Function.update_of_ne hxc]
              · simp [Flood.setParent]
              · simp only [Flood.setParent]
                rw [Function.update_of_ne (Ne.symm hcd), hpar2]; exact (hrootT _ hdd).1
            have hsort := hI.core.cs_sorted
            rw [List.pairwise_cons, List.pairwise_cons] at hsort
            have hT1 : ∀ t ∈ T1, t.2.1.region ≠ d0.region := by
              intro t ht hc
              have hm : t.2.1 ∈ rest1 := by rw [← hr2]; exact List.mem_map_of_mem ht
              have he := hI.core.comp_inj (c := t.2.1) (d := d0) (by simp [hm]) (by simp) hc
              have := hsort.2.1 _ hm
              rw [he] at this; omega
            refine ⟨?_, ?_, rfl, rfl, rfl, m1, m2, m3, m4, ?_, ?_, q5, ?_, ?_, ?_, h.out⟩
            · simp
            · simp [hr2]
            · intro t ht
              rcases List.mem_cons.1 ht with rfl | ht
              · refine ⟨?_, by rw [q2, hvdg], by rw [q3, hc's, hEc.size, hEd.size]⟩
                refine q6.congr (fun _ _ => rfl) (fun _ _ => rfl) (le_refl _) (fun _ _ => ⟨rfl, rfl, rfl⟩) (le_refl _) ?_
                dsimp only
                rw [hbr, if_pos rfl, hbl2, hbl2]
              · have ht' : t ∈ (vd0, d0, ld) :: T1 := List.mem_cons_of_mem _ ht
                have hte := h.each t (List.mem_cons_of_mem _ ht')
                refine ⟨?_, hte.gray, hte.size⟩
                refine (hEt t ht').congr (fun x hx => ?_) (fun _ _ => rfl) (le_refl _) (fun k hk => ?_) (by dsimp only; omega) ?_
                · dsimp only
                  have hx1 := hoth t ht' x hx
                  rw [q7 x (by simp [hx1.1, hx1.2]) ?_]
                  intro hxd
                  have h1 := (hte.sim.set (pix x)).2 ⟨x, hx, rfl⟩
                  have h2 := (hEd.sim.set (pix x)).2 ⟨x, hxd, rfl⟩
                  exact below_disjoint (hrootT _ ht').1 (hrootT _ hdd).1 (hT1 t ht) h1 h2
                · dsimp only
                  have hk' : v.hists k = H2 k := by
                    refine (q9 k (fun hc => ?_) (fun hc => ?_) ?_).symm
                    · exact hne0.1 t ht' k (by rw [← hc'h]; exact hc) hk
                    · have h2 := hne0.2
                      rw [List.pairwise_cons] at h2
                      exact h2.1 t ht k hc hk
                    · have := (hte.sim.hlt k hk).1; omega
                  rw [hk']; exact ⟨rfl, rfl, rfl⟩
                · dsimp only
                  rw [hbr, if_neg (hT1 t ht), hbl2]
            · rw [List.pairwise_cons]
              have h2 := hne0.2
              rw [List.pairwise_cons] at h2
              refine ⟨fun t ht i hi => ?_, h2.2⟩
              dsimp only at hi
              rw [q4] at hi
              obtain rfl := Option.some.inj hi
              intro hc
              have := ((h.each t (List.mem_cons_of_mem _ (List.mem_cons_of_mem _ ht))).sim.hlt _ hc).1
              omega
            · dsimp only; have := h.nh; omega
            · dsimp only; have := h.npts; omega
            · intro x hx
              dsimp only at hx ⊢
              rw [(q8 x).1, (q8 x).2]; exact hplace' x hx
        · -- the sentinel lies below the top component
          have hT0' : T0 = [] := by
            cases T0 with
            | nil => rfl
            | cons a b => exact absurd ⟨a, b, rfl⟩ hT0
          subst hT0'
          simp only [List.map_nil] at hrest
          subst hrest
          obtain ⟨rfl, rfl⟩ : initComp 256 = vd ∧ [] = vt := by simpa using hvd
          obtain ⟨rfl, rfl⟩ : Flood.sent = d ∧ [] = rest' := by simpa using hd
          have e1 : l < (initComp 256).gray := hl256
          have e2 : l < Flood.sent.gray := by simp only [Flood.sent]; omega
          rw [if_pos e1, if_pos e2]
          obtain ⟨c2, H2, out2, r1, r2, r3, r4, r5, r6, r7, r8⟩ := raise_some (out := v.out) (g := l) hE hadd hC' h.hi
            (by rw [hc'g, hEc.gray, htop]; omega) hl256 hnhl (fun i hi => by
              have := (hEc.sim.hist i (by rw [← hc'h]; exact hi)).2.1
              rw [hEc.sim.len] at this; rw [hc's]; exact Nat.lt_succ_of_le this)
            (fun p hp => hplace' p (hadd.lt p hp)) h.out
          rw [r1]
          simp only
          refine ⟨_, rfl, [(c2, (Flood.raise l { c0 with size := c0.size + 1 } regs2 s.nreg).1, lc ++ [v.npts])],
            update pix v.npts s.cur, ?_⟩
          have hbr : below (Flood.raise l { c0 with size := c0.size + 1 } regs2 s.nreg).2.1
              (update s.lab s.cur c0.region) (insert s.cur F) s.nreg = if s.nreg = s.nreg then
                below regs2 (update s.lab s.cur c0.region) (insert s.cur F) s.nreg ∪
                below regs2 (update s.lab s.cur c0.region) (insert s.cur F) c0.region
              else below regs2 (update s.lab s.cur c0.region) (insert s.cur F) s.nreg := by
            have hcn : c0.region < s.nreg := (hI.core.cs_reg c0 (by simp)).1
            refine below_link hparn hlabn (by rw [hpar2]; exact hroot) ?_ ?_ ?_
            · intro x hx hxc
              simp only [Flood.raise, Flood.setParent]
              rw [Function.update_of_ne (by omega), Function.update_of_ne hxc]
            · simp only [Flood.raise, Flood.setParent]
              rw [Function.update_of_ne (by omega), Function.update_self]
            · simp [Flood.raise]
          have hnone : below regs2 (update s.lab s.cur c0.region) (insert s.cur F) s.nreg = ∅ := by
            rw [hbl2]
            ext i
            simp only [Finset.notMem_empty, iff_false]
            intro hi
            rw [mem_below] at hi
            exact absurd (hl.anc_lt hi.1 hi.2) (by omega)
          refine ⟨rfl, rfl, rfl, rfl, rfl, m1, m2, m3, m4, ?_, by simp, r5, ?_, ?_, hplace', r7⟩
          · intro t ht
            simp only [List.mem_singleton] at ht
            subst ht
            refine ⟨?_, r2, by rw [r3, hc's, hEc.size]; rfl⟩
            refine r6.congr (fun _ _ => rfl) (fun _ _ => rfl) (le_refl _) (fun _ _ => ⟨rfl, rfl, rfl⟩) (le_refl _) ?_
            have : (Flood.raise l { c0 with size := c0.size + 1 } regs2 s.nreg).1.region = s.nreg := rfl
            dsimp only
            rw [this, hbr, if_pos rfl, hnone, Finset.empty_union, hbl2]
          · dsimp only; have := h.nh; omega
          · dsimp only; have := h.npts; omega

/-- One step. -/
theorem sim_step (hE : EnvOK E) (hI : Flood.Inv E.P s cs F) (h : Sim E v s F T pix) :
    match Flood.step E.P s with
    | .next s' => ∃ v', step E v = .next v' ∧ ∃ cs' F' T' pix', Flood.Inv E.P s' cs' F' ∧ Sim E v' s' F' T' pix'
    | .done _ => ∃ v', step E v = .done v' ∧ ∀ r ∈ v'.out, ∃ S g C, RecOK E r S g C
    | .ub => step E v = .ub := by
  have hd : v.dir v.cur < E.P.nd ↔ s.nbr ≤ E.P.nd := by rw [h.cur, h.nbr]; omega
  unfold Flood.step step
  by_cases hn : s.nbr ≤ E.P.nd
  · simp only [hn, hd.2 hn, if_true]
    have h1 := Flood.step_tour hE.ok hI hn
    have h2 := sim_tour hI hn h
    revert h1 h2
    cases Flood.tour E.P s with
    | next s' =>
      simp only
      rintro ⟨cs', h1, -⟩ ⟨v', h2, T', h3⟩
      exact ⟨v', h2, cs', F, T', pix, h1, h3⟩
    | done s' => simp
    | ub => simp
  · simp only [hn, hd, if_false]
    have h1 := Flood.step_finish hE.ok hI hn
    have h2 := sim_finish hE hI hn h
    revert h1 h2
    cases Flood.finish s with
    | next s' =>
      simp only
      rintro ⟨cs', h1, -⟩ ⟨v', h2, T', pix', h3⟩
      exact ⟨v', h2, cs', _, T', pix', h1, h3⟩
    | done s' => simp only; exact fun _ h => h
    | ub => simp

/-- A whole pass. -/
theorem sim_run (hE : EnvOK E) : ∀ (n : Nat) {v : St} {s : Flood.St} {cs : List Flood.Comp} {F : Finset Nat}
    {T : List Trip} {pix : Nat → Nat}, Flood.Inv E.P s cs F → Sim E v s F T pix →
    match Flood.run E.P n s with
    | .next _ => ∃ v', run E n v = .next v'
    | .done _ => ∃ v', run E n v = .done v' ∧ ∀ r ∈ v'.out, ∃ S g C, RecOK E r S g C
    | .ub => run E n v = .ub
  | 0, v, s, cs, F, T, pix, _, _ => ⟨v, rfl⟩
  | n + 1, v, s, cs, F, T, pix, hI, h => by
    have h1 := sim_step hE hI h
    simp only [Flood.run, run]
    revert h1
    cases Flood.step E.P s with
    | next s' =>
      rintro ⟨v', h1, cs', F', T', pix', h2, h3⟩
      rw [h1]
      exact sim_run hE n h2 h3
    | done s' =>
      rintro ⟨v', h1, h2⟩
      rw [h1]
      exact ⟨v', rfl, h2⟩
    | ub =>
      intro h1
      rw [h1]

/-- The pass comes to its end. -/
theorem run_done (hE : EnvOK E) (hcap : 257 ≤ E.P.cap) {vis : Nat → Bool} (H : Nat → Hist) (pts : Nat → LPoint)
    (hvis : ∀ i, Seen E.P i → (vis i = false ↔ i ∈ E.P.px)) {n : Nat} (hn : (E.P.nd + 1) * E.P.px.card ≤ n) :
    ∃ v', run E n (init E.P vis H pts) = .done v' ∧ ∀ r ∈ v'.out, ∃ S g C, RecOK E r S g C := by
  have h1 := sim_run hE n (Flood.inv_init hE.ok) (sim_init H pts hvis hE.ok)
  have h2 := Flood.run_inv hE.ok n (Flood.inv_init hE.ok)
  revert h1 h2
  cases Flood.run E.P n (Flood.init E.P) with
  | next s' =>
    rintro - ⟨cs', F', h3, h4⟩
    have := h3.work_lt
    rw [Flood.work_init] at h4
    omega
  | done s' => exact fun h _ => h
  | ub =>
    rintro - h3
    exfalso
    have : (E.P.px.image E.P.gray).card ≤ (Finset.range 256).card := by
      refine Finset.card_le_card fun g hg => ?_
      obtain ⟨i, hi, rfl⟩ := Finset.mem_image.1 hg
      exact Finset.mem_range.2 (hE.gray i hi)
    rw [Finset.card_range] at this
    simp only at h3
    omega

end Verif.OpenCv
