import Verif.Proof.ListsV1Merge
import Verif.Proof.FloodMem

/-!
# Fast MSER V1: flooding follows the flooding of V2

`Verif.Model.FloodV1` runs in lockstep with `Verif.Model.Flood`; the point lists satisfy `LI` all along.
-/

namespace Verif.V1

open Function (update)
open Verif.Flood (Patch scan)

/-- The part of a component that V2 has, too. -/
def toComp (c : Comp) : Flood.Comp := { region := c.region, gray := c.gray, size := c.size }

/-- The part of a region that V2 has, too. -/
def toReg (r : Reg) : Flood.Reg := { gray := r.gray, parent := r.parent, size := r.size }

/-- Position of a cell in the image. -/
def px (P : Patch) (G : Geo) (i : Nat) : Nat := cellX P G i + G.left
def py (P : Patch) (G : Geo) (i : Nat) : Nat := cellY P G i + G.top

/-- Position on side `k`. -/
def sidePos (P : Patch) (G : Geo) (k i : Nat) : Nat := if k < 2 then cellY P G i else cellX P G i

/-- Different pixels have different positions. -/
def Geo.OK (P : Patch) (G : Geo) : Prop :=
  ∀ i ∈ P.px, ∀ j ∈ P.px, cellX P G i = cellX P G j → cellY P G i = cellY P G j → i = j

/-- The finished pixels and the points made for them, and what was recorded for joined sides. -/
structure Points (P : Patch) (G : Geo) (base : Nat) (pix lab : Nat → Nat) (border : Nat → Nat → Option Nat)
    (npts : Nat) (F : Finset Nat) : Prop where
  mem : ∀ p, base ≤ p → p < npts → pix p ∈ F
  all : ∀ i ∈ F, ∃ p, base ≤ p ∧ p < npts ∧ pix p = i
  inj : ∀ p q, base ≤ p → p < npts → base ≤ q → q < npts → pix p = pix q → p = q
  side : ∀ i ∈ F, ∀ k, onSide P G i k = true → border k (sidePos P G k i) = some (lab i)

/-- A state of V1 and a state of V2. -/
structure Sim (P : Patch) (G : Geo) (base : Nat) (pts0 : Nat → Point) (v : St) (s : Flood.St) (F : Finset Nat) (vcs : List Comp)
    (pix : Nat → Nat) (L : Nat → List Nat) : Prop where
  comps : v.comps = vcs ++ [initComp 257 0]
  toComps : v.comps.map toComp = s.comps
  regs : ∀ r, toReg (v.regs r) = s.regs r
  nreg : v.nreg = s.nreg
  cur : v.cur = s.cur
  heap : v.heap = s.heap
  lvl : v.lvl = s.curGray
  vis : ∀ i, v.vis i = false ↔ s.cnt i = 0
  dir : ∀ i ∈ P.px, i ≠ s.cur → s.cnt i ≠ 0 → s.cnt i = v.dir i + 1
  dir0 : ∀ i ∈ P.px, s.cnt i = 0 → v.dir i = 0
  nbr : s.nbr = v.dir s.cur + 1
  li : LI (flagged P G) (px P G) (py P G) base pix s.lab L vcs v.regs v.nreg v.pts v.npts
  points : Points P G base pix s.lab v.border v.npts F
  npts : v.npts = base + F.card
  keep : ∀ p, p < base ∨ v.npts ≤ p → v.pts p = pts0 p

variable {P : Patch} {G : Geo} {base : Nat} {pts0 : Nat → Point} {v : St} {s : Flood.St} {F : Finset Nat} {vcs : List Comp}
  {pix : Nat → Nat} {L : Nat → List Nat} {cs : List Flood.Comp}

theorem sim_init (hP : P.OK) (base : Nat) (pts : Nat → Point) (border : Nat → Nat → Option Nat) :
    Sim P G base pts (init P base pts border) (Flood.init P) ∅ [initComp (P.gray P.start) 0] (fun _ => 0) (fun _ => []) := by
  refine ⟨rfl, rfl, fun _ => rfl, rfl, rfl, rfl, rfl, ?_, ?_, ?_, rfl, ?_, ?_, by simp [init], fun _ _ => rfl⟩
  · intro i
    by_cases e : i = P.start
    · subst e; simp [init, Flood.init]
    · simp only [init, Flood.init, Function.update_of_ne e]
      by_cases h : i ∈ P.px <;> simp [h]
  · intro i hi hne hc
    simp only [Flood.init] at hc hne
    rw [Function.update_of_ne hne] at hc
    simp [hi] at hc
  · intro i _ _; rfl
  · refine ⟨le_refl _, ?_, ?_, ?_, ?_, ?_, ?_, ?_, ?_, ?_, ?_, ?_, ?_⟩
    · intro r _ r' hp; simp [init, initReg] at hp
    · intro p h1 h2; simp only [init] at h2; omega
    · intro c hc; simp at hc; subst hc; simp [init, initComp, initReg]
    · simp
    · intro p h1 h2; simp only [init] at h2; omega
    · intro r _ p; simp only [List.not_mem_nil, false_iff, not_and]; intro h1 h2; simp only [init] at h2; omega
    · intro r _; simp
    · intro r _; simp [Spec.Linked]
    · intro c hc; simp at hc; subst hc; constructor <;> simp [initComp]
    · intro r _; simp [init, initReg]
    · intro r _ hp; simp [init, initReg] at hp
    · intro r _ r' hp; simp [init, initReg] at hp
  · refine ⟨?_, ?_, ?_, ?_⟩
    · intro p h1 h2; simp only [init] at h2; omega
    · simp
    · intro p q h1 h2; simp only [init] at h2; omega
    · simp

theorem sim_tour (hP : P.OK) (hI : Flood.Inv P s cs F) (hn : s.nbr ≤ P.nd) (h : Sim P G base pts0 v s F vcs pix L) :
    match Flood.tour P s with
    | .next s' => ∃ v', tour P v = .next v' ∧ ∃ vcs' L', Sim P G base pts0 v' s' F vcs' pix L'
    | .done _ => False
    | .ub => tour P v = .ub := by
  have hcur := h.cur
  have hd : v.dir s.cur + 1 = s.nbr := h.nbr.symm
  have hg : P.gray s.cur = v.lvl := by rw [h.lvl]; exact hI.cur_gray
  have hlen : v.comps.length = s.comps.length := by rw [← h.toComps, List.length_map]
  have hb0 : ∀ x, (update v.dir s.cur s.nbr) x = if x = s.cur then s.nbr else v.dir x := fun x => by
    by_cases e : x = s.cur
    · subst e; simp
    · simp [e]
  unfold Flood.tour tour
  simp only [hd, hcur]
  generalize hq : P.nb s.cur s.nbr = q
  by_cases hc : s.cnt q = 0
  · obtain ⟨q1, q2, q3, q4, q5⟩ := hI.unvisited hn (by rw [hq]; exact hc)
    rw [hq] at q1 q2 q3 q4 q5
    have hv : v.vis q = false := (h.vis q).2 hc
    have hvis' : ∀ (f : Nat → Nat), (∀ i, f i = 0 ↔ update s.cnt q 1 i = 0) →
        ∀ i, update v.vis q true i = false ↔ f i = 0 := by
      intro f hf i
      rw [hf]
      by_cases e : i = q
      · subst e; simp
      · rw [Function.update_of_ne e, Function.update_of_ne e]; exact h.vis i
    have hlt : (P.gray q < P.gray s.cur) ↔ P.gray q < s.curGray := by rw [hI.cur_gray]
    simp only [hc, hv, if_true]
    by_cases hgq : P.gray q < s.curGray
    · simp only [hgq, hlt.2 hgq, if_true, hlen]
      by_cases hcap : s.comps.length < P.cap
      · simp only [hcap, if_true]
        refine ⟨_, rfl, initComp (P.gray q) v.nreg :: vcs, update L v.nreg [], ?_⟩
        refine ⟨?_, ?_, ?_, ?_, rfl, ?_, ?_, ?_, ?_, ?_, ?_, ?_, h.points, h.npts, h.keep⟩
        · simp [h.comps]
        · simp [toComp, initComp, h.toComps, h.nreg]
        · intro r
          dsimp only
          rw [h.nreg]
          by_cases e : r = s.nreg
          · subst e; simp [toReg, initReg]
          · rw [Function.update_of_ne e, Function.update_of_ne e]; exact h.regs r
        · dsimp only; rw [h.nreg]
        · dsimp only; rw [h.heap, h.lvl]
        · dsimp only; rw [hg]; omega
        · refine hvis' _ (fun i => ?_)
          dsimp only
          by_cases e : i = s.cur
          · subst e; simp [Function.update_of_ne (Ne.symm q4), hI.cnt_cur]
          · rw [Function.update_of_ne e]
        · dsimp only
          intro i hi hne hci
          by_cases e : i = s.cur
          · subst e; simp
          · rw [Function.update_of_ne e, Function.update_of_ne hne] at hci ⊢
            rw [Function.update_of_ne e]; exact h.dir i hi e hci
        · dsimp only
          intro i hi hci
          by_cases e : i = s.cur
          · subst e; simp at hci
          · rw [Function.update_of_ne e] at hci ⊢
            by_cases e' : i = q
            · subst e'; simp at hci
            · rw [Function.update_of_ne e'] at hci; exact h.dir0 i hi hci
        · dsimp only
          rw [Function.update_of_ne q4, h.dir0 q q1 hc]
        · dsimp only
          rw [← hI.cur_gray] at hgq
          exact h.li.push (P.gray q)
      · simp only [hcap, if_false]
    · have hgq' : ¬ P.gray q < P.gray s.cur := by rw [hlt]; exact hgq
      simp only [hgq, hgq', if_false]
      refine ⟨_, rfl, vcs, L, ?_⟩
      have hl : v.lvl + P.gray q - P.gray s.cur = P.gray q := by rw [hg]; omega
      rw [hl]
      refine ⟨h.comps, h.toComps, h.regs, h.nreg, rfl, ?_, h.lvl, ?_, ?_, ?_, ?_, h.li, h.points, h.npts, h.keep⟩
      · dsimp only; rw [h.heap]
      · exact hvis' _ (fun i => Iff.rfl)
      · dsimp only
        intro i hi hne hci
        rw [Function.update_of_ne hne]
        by_cases e : i = q
        · subst e; rw [Function.update_self, h.dir0 i q1 hc]
        · rw [Function.update_of_ne e] at hci ⊢; exact h.dir i hi hne hci
      · dsimp only
        intro i hi hci
        have e : i ≠ q := by rintro rfl; simp at hci
        rw [Function.update_of_ne e] at hci
        have e' : i ≠ s.cur := by rintro rfl; exact hI.cnt_cur hci
        rw [Function.update_of_ne e']; exact h.dir0 i hi hci
      · dsimp only; rw [Function.update_self]
  · have hv : ¬ v.vis q = false := fun e => hc ((h.vis q).1 e)
    simp only [hc, hv, if_false]
    refine ⟨_, rfl, vcs, L, ?_⟩
    refine ⟨h.comps, h.toComps, h.regs, h.nreg, rfl, h.heap, h.lvl, h.vis, ?_, ?_, ?_, h.li, h.points, h.npts, h.keep⟩
    · dsimp only
      intro i hi hne hci
      rw [Function.update_of_ne hne]; exact h.dir i hi hne hci
    · dsimp only
      intro i hi hci
      have e' : i ≠ s.cur := by rintro rfl; exact hI.cnt_cur hci
      rw [Function.update_of_ne e']; exact h.dir0 i hi hci
    · dsimp only; rw [Function.update_self]

/-- One more finished pixel. -/
theorem Points.add {lab : Nat → Nat} {border : Nat → Nat → Option Nat} {npts i r : Nat}
    (h : Points P G base pix lab border npts F) (hb : base ≤ npts) (hG : G.OK P) (hF : ∀ j ∈ F, j ∈ P.px)
    (hi : i ∈ P.px) (hiF : i ∉ F) :
    Points P G base (update pix npts i) (update lab i r) (setBorder P G i r border) (npts + 1) (insert i F) := by
  refine ⟨?_, ?_, ?_, ?_⟩
  · intro p h1 h2
    by_cases e : p = npts
    · subst e; simp
    · rw [Function.update_of_ne e]; exact Finset.mem_insert_of_mem (h.mem p h1 (by omega))
  · intro j hj
    rcases Finset.mem_insert.1 hj with rfl | hj
    · exact ⟨npts, hb, by omega, by simp⟩
    · obtain ⟨p, h1, h2, h3⟩ := h.all j hj
      exact ⟨p, h1, by omega, by rw [Function.update_of_ne (by omega)]; exact h3⟩
  · intro p q p1 p2 q1 q2 hpq
    by_cases e : p = npts
    · by_cases e' : q = npts
      · omega
      · subst e
        rw [Function.update_self, Function.update_of_ne e'] at hpq
        exact absurd (h.mem q q1 (by omega)) (hpq ▸ hiF)
    · by_cases e' : q = npts
      · subst e'
        rw [Function.update_self, Function.update_of_ne e] at hpq
        exact absurd (h.mem p p1 (by omega)) (hpq.symm ▸ hiF)
      · rw [Function.update_of_ne e, Function.update_of_ne e'] at hpq
        exact h.inj p q p1 (by omega) q1 (by omega) hpq
  · intro j hj k hs
    rcases Finset.mem_insert.1 hj with e | hjF
    · subst e
      simp only [setBorder, hs, sidePos, Bool.true_and, decide_true, if_true, Function.update_self]
    · have hne : j ≠ i := by rintro rfl; exact hiF hjF
      rw [Function.update_of_ne hne, ← h.side j hjF k hs]
      simp only [setBorder]
      rw [if_neg]
      intro hcon
      simp only [Bool.and_eq_true, decide_eq_true_eq] at hcon
      obtain ⟨c1, c2⟩ := hcon
      apply hne
      match k, hs, c1, c2 with
      | 0, hs, c1, c2 =>
        simp [onSide, sidePos] at hs c1 c2
        exact hG j (hF j hjF) i hi (by omega) c2
      | 1, hs, c1, c2 =>
        simp [onSide, sidePos] at hs c1 c2
        exact hG j (hF j hjF) i hi (by omega) c2
      | 2, hs, c1, c2 =>
        simp [onSide, sidePos] at hs c1 c2
        exact hG j (hF j hjF) i hi c2 (by omega)
      | 3, hs, c1, c2 =>
        simp [onSide, sidePos] at hs c1 c2
        exact hG j (hF j hjF) i hi c2 (by omega)
      | k + 4, hs, _, _ => simp [onSide] at hs

/-- The state in which the loop stops. -/
structure Done (P : Patch) (G : Geo) (base : Nat) (pts0 : Nat → Point) (v : St) (s : Flood.St) (c : Comp) (pix : Nat → Nat)
    (L : Nat → List Nat) : Prop where
  regs : ∀ r, toReg (v.regs r) = s.regs r
  nreg : v.nreg = s.nreg
  li : LI (flagged P G) (px P G) (py P G) base pix s.lab L [c] v.regs v.nreg v.pts v.npts
  root : RegOK v.pts (fun p => s.lab (pix p)) (L c.region) c.region (v.regs c.region)
  points : Points P G base pix s.lab v.border v.npts P.px
  npts : v.npts = base + P.px.card
  keep : ∀ p, p < base ∨ v.npts ≤ p → v.pts p = pts0 p

theorem toReg_store {c : Comp} {regs : Nat → Reg} {regs' : Nat → Flood.Reg} (h : ∀ r, toReg (regs r) = regs' r) (r : Nat) :
    toReg (store c regs r) = update regs' c.region { regs' c.region with size := c.size } r := by
  unfold store
  by_cases e : r = c.region
  · subst e; simp [toReg, ← h]
  · rw [Function.update_of_ne e, Function.update_of_ne e]; exact h r

theorem toReg_raise {l n : Nat} {c : Comp} {regs : Nat → Reg} {regs' : Nat → Flood.Reg} (h : ∀ r, toReg (regs r) = regs' r)
    (r : Nat) : toReg ((raise l c regs n).2.1 r) = (Flood.raise l (toComp c) regs' n).2.1 r := by
  simp only [raise, Flood.raise, Flood.setParent, toComp]
  by_cases e : r = n
  · subst e; simp [toReg, initReg]
  · rw [Function.update_of_ne e, Function.update_of_ne e]
    by_cases e' : r = c.region
    · subst e'; simp [toReg, ← h]
    · rw [Function.update_of_ne e', Function.update_of_ne e']; exact h r

theorem toComp_map_eq {vs : List Comp} {a b : Flood.Comp} {r : List Flood.Comp} (h : vs.map toComp = a :: b :: r) :
    ∃ c d t, vs = c :: d :: t ∧ toComp c = a ∧ toComp d = b ∧ t.map toComp = r := by
  cases vs with
  | nil => simp at h
  | cons c vs =>
    cases vs with
    | nil => simp at h
    | cons d t =>
      simp only [List.map_cons, List.cons.injEq] at h
      exact ⟨c, d, t, rfl, h.1, h.2.1, h.2.2⟩

theorem Sim.vcs_map (h : Sim P G base pts0 v s F vcs pix L) (hI : Flood.Inv P s cs F) : vcs.map toComp = cs := by
  have h1 := h.toComps
  rw [h.comps, hI.comps, List.map_append] at h1
  exact (List.append_inj' h1 rfl).1

/-- The parts of `Sim` about visited cells after the current pixel is finished and `p` is taken from the heap. -/
theorem Sim.move (h : Sim P G base pts0 v s F vcs pix L) (hI : Flood.Inv P s cs F) {l p : Nat} (hp : p ∈ s.heap l) :
    (∀ i, v.vis i = false ↔ update s.cnt s.cur s.nbr i = 0) ∧
    (∀ i ∈ P.px, i ≠ p → update s.cnt s.cur s.nbr i ≠ 0 → update s.cnt s.cur s.nbr i = v.dir i + 1) ∧
    (∀ i ∈ P.px, update s.cnt s.cur s.nbr i = 0 → v.dir i = 0) ∧
    update s.cnt s.cur s.nbr p = v.dir p + 1 := by
  obtain ⟨p1, p2, p3, p4, p5⟩ := hI.core.heap_ok l p hp
  have hnb := hI.nbr_pos
  have hcc := hI.cnt_cur
  refine ⟨?_, ?_, ?_, ?_⟩
  · intro i
    rw [h.vis i]
    by_cases e : i = s.cur
    · subst e; rw [Function.update_self]; omega
    · rw [Function.update_of_ne e]
  · intro i hi hne hc
    by_cases e : i = s.cur
    · subst e; rw [Function.update_self]; exact h.nbr
    · rw [Function.update_of_ne e] at hc ⊢; exact h.dir i hi e hc
  · intro i hi hc
    by_cases e : i = s.cur
    · subst e; rw [Function.update_self] at hc; omega
    · rw [Function.update_of_ne e] at hc; exact h.dir0 i hi hc
  · rw [Function.update_of_ne p5]; exact h.dir p p1 p5 p3

theorem sim_finish (hP : P.OK) (hG : G.OK P) (hI : Flood.Inv P s cs F) (h : Sim P G base pts0 v s F vcs pix L) :
    match Flood.finish s with
    | .next s' => ∃ v', finish P G v = .next v' ∧ ∃ vcs' pix' L', Sim P G base pts0 v' s' (insert s.cur F) vcs' pix' L'
    | .done s' => ∃ v', finish P G v = .done v' ∧ (insert s.cur F = P.px → ∃ c pix' L', Done P G base pts0 v' s' c pix' L')
    | .ub => True := by
  obtain ⟨c, rest, hcs, htop⟩ := hI.core.cs_top
  subst hcs
  have hmap := h.vcs_map hI
  obtain ⟨vc, vrest, rfl, hvc, hvr⟩ := List.map_eq_cons_iff.1 hmap
  subst hvc
  obtain ⟨d, rest', hd⟩ : ∃ d rest', rest ++ [Flood.sent] = d :: rest' := by
    cases rest with
    | nil => exact ⟨_, _, rfl⟩
    | cons d r => exact ⟨_, _, rfl⟩
  have hcomps : s.comps = toComp vc :: d :: rest' := by rw [hI.comps]; simp [hd]
  obtain ⟨vd, vt, hvd⟩ : ∃ vd vt, vrest ++ [initComp 257 0] = vd :: vt := by
    cases vrest with
    | nil => exact ⟨_, _, rfl⟩
    | cons d r => exact ⟨_, _, rfl⟩
  have hvcomps : v.comps = vc :: vd :: vt := by rw [h.comps]; simp [hvd]
  have htc := h.toComps
  rw [hvcomps, hcomps] at htc
  simp only [List.map_cons, List.cons.injEq, true_and] at htc
  obtain ⟨htd, htt⟩ := htc
  subst htd
  have hcur := h.cur
  obtain ⟨c', pts', hacc, hc'r, hc'g, hc's, hli, hk1, hk2⟩ := h.li.add (i := s.cur)
    (fun p h1 h2 e => hI.cur_F (e ▸ h.points.mem p h1 h2))
  have hnp : v.npts + 1 = base + (insert s.cur F).card := by
    rw [Finset.card_insert_of_notMem hI.cur_F, h.npts]; omega
  have hkeep : ∀ p, p < base ∨ v.npts + 1 ≤ p → pts' p = pts0 p := by
    rintro p (h1 | h1)
    · rw [hk1 p h1]; exact h.keep p (.inl h1)
    · rw [hk2 p (by omega)]; exact h.keep p (.inr (by omega))
  have hpoints := h.points.add (r := vc.region) h.li.base_le hG hI.core.F_px hI.cur_px hI.cur_F
  have hregs : ∀ r, toReg (update v.regs vc.region { v.regs vc.region with
      boundary := (v.regs vc.region).boundary || flagged P G s.cur } r) = s.regs r := by
    intro r
    by_cases e : r = vc.region
    · subst e; simp [toReg, ← h.regs]
    · rw [Function.update_of_ne e]; exact h.regs r
  have hgc : P.gray s.cur = s.curGray := hI.cur_gray
  unfold Flood.finish finish
  rw [hcomps, hvcomps]
  simp only [hcur]
  simp only [px, py] at hacc
  rw [hacc]
  have htc' : toComp c' = { toComp vc with size := (toComp vc).size + 1 } := by simp [toComp, hc'r, hc'g, hc's]
  have hvcr : (toComp vc).region = vc.region := rfl
  simp only
  rw [← htc']
  rw [h.lvl, h.heap]
  generalize hreg1 : update v.regs vc.region { v.regs vc.region with
      boundary := (v.regs vc.region).boundary || flagged P G s.cur } = regs1 at *
  cases hh : s.heap s.curGray with
  | cons p ps =>
    simp only
    obtain ⟨m1, m2, m3, m4⟩ := h.move hI (l := s.curGray) (p := p) (by rw [hh]; simp)
    refine ⟨_, rfl, c' :: vrest, update pix v.npts s.cur, update L vc.region (v.npts :: L vc.region), ?_⟩
    refine ⟨?_, ?_, hregs, h.nreg, rfl, rfl, rfl, m1, m2, m3, m4, hli, hpoints, hnp, hkeep⟩
    · simp [hvd]
    · simp [htt]
  | nil =>
    simp only
    have hst := hli.store (c := c') (by
      intro a ha
      rw [hc'r, Function.update_self] at ha
      simp at ha; subst ha
      rw [Function.update_self, Function.update_self, hc'r]) (by omega)
    obtain ⟨hli2, hR⟩ := hst
    have hregs2 : ∀ r, toReg (store c' regs1 r) = update s.regs (toComp c').region
        { s.regs (toComp c').region with size := (toComp c').size } r := toReg_store hregs
    have hcr' : (toComp c').region = (toComp vc).region := by rw [htc']
    have hcs' : (toComp c').size = (toComp vc).size + 1 := by rw [htc']
    rw [hcr', hcs'] at hregs2
    rw [hgc]
    generalize hst2 : store c' regs1 = regs2 at *
    generalize hst3 : update s.regs (toComp vc).region
        { s.regs (toComp vc).region with size := (toComp vc).size + 1 } = sregs2 at *
    cases hsc : scan s.heap (256 - s.curGray) (s.curGray + 1) with
    | none =>
      simp only
      refine ⟨_, rfl, fun hF => ?_⟩
      refine ⟨c', update pix v.npts s.cur, update L vc.region (v.npts :: L vc.region), hregs2, h.nreg, ?_, hR, hF ▸ hpoints, hF ▸ hnp, hkeep⟩
      have hvr' : vrest = [] := by
        cases vrest with
        | nil => rfl
        | cons e r =>
          exfalso
          have he : toComp e ∈ toComp vc :: rest := by rw [← hvr]; simp
          have he' : toComp e ∈ (toComp vc :: rest).tail := by rw [← hvr]; simp
          have hw := hI.core.cs_wait _ he'
          obtain ⟨j, hj⟩ := List.exists_mem_of_ne_nil _ hw
          have h1 := hI.core.lvl_ge hj
          have h2 := (hI.core.cs_reg _ he).2.2.1
          by_cases e1 : (toComp e).gray = s.curGray
          · rw [e1, hh] at hj; simp at hj
          · exact hw (Flood.scan_none hsc _ (by omega) (by omega))
      subst hvr'
      exact hli2
    | some l =>
      simp only
      obtain ⟨l1, l2, l3, l4⟩ := Flood.scan_some hsc
      cases hhl : s.heap l with
      | nil => exact absurd hhl l3
      | cons p ps =>
        simp only
        obtain ⟨m1, m2, m3, m4⟩ := h.move hI (l := l) (p := p) (by rw [hhl]; simp)
        have hvdg : (toComp vd).gray = vd.gray := rfl
        rw [hvdg]
        by_cases hld : l < vd.gray
        · simp only [hld, if_true]
          refine ⟨_, rfl, (raise l c' regs2 v.nreg).1 :: vrest, update pix v.npts s.cur,
            update (update L vc.region (v.npts :: L vc.region)) v.nreg
              (update L vc.region (v.npts :: L vc.region) c'.region), ?_⟩
          refine ⟨?_, ?_, ?_, ?_, rfl, rfl, rfl, m1, m2, m3, m4, hli2.raise l hR, hpoints, hnp, hkeep⟩
          · simp [hvd]
          · simp [htt, raise, Flood.raise, toComp, h.nreg]
          · rw [h.nreg]; exact toReg_raise hregs2
          · simp [raise, Flood.raise, h.nreg]
        · simp only [hld, if_false]
          cases hvrest : vrest with
          | nil =>
            rw [hvrest] at hvd
            have : vd = initComp 257 0 := by simp at hvd; exact hvd.1.symm
            subst this
            exfalso; simp [initComp] at hld; omega
          | cons d0 r =>
            rw [hvrest] at hvd hli2 hvr
            obtain ⟨rfl, rfl⟩ : d0 = vd ∧ r ++ [initComp 257 0] = vt := by simpa using hvd
            have hdin : toComp d0 ∈ (toComp vc :: rest).tail := by rw [← hvr]; simp
            have hdl : d0.gray = l := by
              have h1 := hI.core.cs_wait _ hdin
              have h5 : s.curGray < (toComp d0).gray := by
                have hs := hI.core.cs_sorted
                rw [List.pairwise_cons] at hs
                rw [← htop]; exact hs.1 _ hdin
              by_contra hne
              exact h1 (l4 _ (by omega) (by rw [hvdg]; omega))
            subst hdl
            obtain ⟨d', regs', pts'', hmc, hd1, hd2, hd3, hd4, hli3, hk3⟩ := hli2.merge hR
            have hml : mergeLoop d0.gray c' (d0 :: (r ++ [initComp 257 0])) regs2 v.nreg pts'
                = some ⟨d' :: (r ++ [initComp 257 0]), regs', v.nreg, pts''⟩ := by
              unfold mergeLoop; simp [hmc, hd2]
            have hmf : Flood.mergeLoop d0.gray (toComp c') (toComp d0 :: rest') sregs2 s.nreg
                = some ⟨{ toComp d0 with size := (toComp d0).size + (toComp c').size } :: rest',
                    Flood.setParent sregs2 (toComp c').region (toComp d0).region, s.nreg⟩ := by
              unfold Flood.mergeLoop; simp [hvdg]
            rw [hml, hmf]
            simp only
            refine ⟨_, rfl, d' :: r, update pix v.npts s.cur,
              update (update L vc.region (v.npts :: L vc.region)) d0.region
                (update L vc.region (v.npts :: L vc.region) d0.region ++
                  update L vc.region (v.npts :: L vc.region) c'.region), ?_⟩
            refine ⟨rfl, ?_, ?_, h.nreg, rfl, rfl, rfl, m1, m2, m3, m4, hli3, hpoints, hnp,
              fun p hp => (hk3 p hp).trans (hkeep p hp)⟩
            · simp [htt, toComp, hd1, hd2, hd3]
            · intro x
              have := hd4 x
              simp only [Flood.setParent]
              by_cases e : x = (toComp c').region
              · subst e
                rw [Function.update_self, ← hregs2]
                have e2 : (toComp c').region = c'.region := rfl
                rw [e2, if_pos rfl] at this
                simp [toReg, e2, this, toComp]
              · rw [Function.update_of_ne e, ← hregs2]
                have e2 : x ≠ c'.region := e
                rw [if_neg e2] at this
                simp [toReg, this]

/-- One step. -/
theorem sim_step (hP : P.OK) (hG : G.OK P) (hI : Flood.Inv P s cs F) (h : Sim P G base pts0 v s F vcs pix L) :
    match Flood.step P s with
    | .next s' => ∃ v', step P G v = .next v' ∧ ∃ cs' F' vcs' pix' L', Flood.Inv P s' cs' F' ∧ Sim P G base pts0 v' s' F' vcs' pix' L'
    | .done s' => ∃ v', step P G v = .done v' ∧ (∃ c, Flood.Final P s' c) ∧ ∃ c pix' L', Done P G base pts0 v' s' c pix' L'
    | .ub => step P G v = .ub := by
  have hd : v.dir v.cur < P.nd ↔ s.nbr ≤ P.nd := by rw [h.cur, h.nbr]; omega
  unfold Flood.step step
  by_cases hn : s.nbr ≤ P.nd
  · simp only [hn, hd.2 hn, if_true]
    have h1 := Flood.step_tour hP hI hn
    have h2 := sim_tour hP hI hn h
    revert h1 h2
    cases Flood.tour P s with
    | next s' =>
      simp only
      rintro ⟨cs', h1, -⟩ ⟨v', h2, vcs', L', h3⟩
      exact ⟨v', h2, cs', F, vcs', pix, L', h1, h3⟩
    | done s' => simp
    | ub => simp
  · simp only [hn, hd, if_false]
    have h1 := Flood.step_finish hP hI hn
    have h2 := sim_finish hP hG hI h
    have hF : ∀ s', Flood.finish s = .done s' → insert s.cur F = P.px := by
      intro s' hs'
      have h3 := hI.last hP hn hs'
      exact h3
    revert h1 h2 hF
    cases Flood.finish s with
    | next s' =>
      simp only
      rintro ⟨cs', h1, -⟩ ⟨v', h2, vcs', pix', L', h3⟩ -
      exact ⟨v', h2, cs', _, vcs', pix', L', h1, h3⟩
    | done s' =>
      simp only
      rintro ⟨h1, -⟩ ⟨v', h2, h3⟩ h4
      exact ⟨v', h2, h1, h3 (h4 s' rfl)⟩
    | ub => simp

/-- A whole pass. -/
theorem sim_run (hP : P.OK) (hG : G.OK P) : ∀ (n : Nat) {v : St} {s : Flood.St} {cs : List Flood.Comp} {F : Finset Nat}
    {vcs : List Comp} {pix : Nat → Nat} {L : Nat → List Nat},
    Flood.Inv P s cs F → Sim P G base pts0 v s F vcs pix L →
    match Flood.run P n s with
    | .next _ => ∃ v', run P G n v = .next v'
    | .done s' => ∃ v', run P G n v = .done v' ∧ (∃ c, Flood.Final P s' c) ∧ ∃ c pix' L', Done P G base pts0 v' s' c pix' L'
    | .ub => run P G n v = .ub
  | 0, v, s, cs, F, vcs, pix, L, _, _ => ⟨v, rfl⟩
  | n + 1, v, s, cs, F, vcs, pix, L, hI, h => by
    have h1 := sim_step hP hG hI h
    simp only [Flood.run, run]
    revert h1
    cases Flood.step P s with
    | next s' =>
      rintro ⟨v', h1, cs', F', vcs', pix', L', h2, h3⟩
      rw [h1]
      exact sim_run hP hG n h2 h3
    | done s' =>
      rintro ⟨v', h1, h2⟩
      rw [h1]
      exact ⟨v', rfl, h2⟩
    | ub =>
      intro h1
      rw [h1]

end Verif.V1
