import Verif.Proof.LinearWords
import Verif.Props.FloodV1

/-!
# The linear detector floods like V1 does
-/

namespace Verif.Linear

open Function (update)
open Verif.FloodMem (Lay histOf)

/-! ### Projections -/

/-- The part of a component of V1 that the linear detector has, too. -/
def projC (c : V1.Comp) : Comp := { head := c.head, tail := c.tail, region := c.region, gray := c.gray, size := c.size }

/-- The part of a point. -/
def projP (p : V1.Point) : Point := { x := p.x, y := p.y, next := p.next, prev := p.prev }

/-- A region of V1 and a region: what V1 has assigned is the same here. -/
structure RegRel (v : V1.Reg) (l : Reg) : Prop where
  gray : l.gray = v.gray % 256
  parent : l.parent = v.parent
  head : ∀ a, v.head = some a → l.head = a ∧ l.size = v.size
  tail : ∀ a, v.tail = some a → l.tail = a

/-- All regions made so far. -/
def RR (n : Nat) (vr : Nat → V1.Reg) (lr : Nat → Reg) : Prop := ∀ r < n, RegRel (vr r) (lr r)

section
variable {n : Nat} {vr : Nat → V1.Reg} {lr : Nat → Reg} {pts : Nat → V1.Point}

theorem RR.set (h : RR n vr lr) {r : Nat} {A : V1.Reg} {B : Reg} (hAB : RegRel A B) :
    RR n (update vr r A) (update lr r B) := by
  intro x hx
  by_cases e : x = r
  · subst e; rw [Function.update_self, Function.update_self]; exact hAB
  · rw [Function.update_of_ne e, Function.update_of_ne e]; exact h x hx

theorem RR.left (h : RR n vr lr) {r : Nat} {A : V1.Reg} (hA : r < n → RegRel A (lr r)) : RR n (update vr r A) lr := by
  intro x hx
  by_cases e : x = r
  · subst e; rw [Function.update_self]; exact hA hx
  · rw [Function.update_of_ne e]; exact h x hx

theorem RR.extend (h : RR n vr lr) {A : V1.Reg} {B : Reg} (hAB : RegRel A B) :
    RR (n + 1) (update vr n A) (update lr n B) := by
  intro x hx
  by_cases e : x = n
  · subst e; rw [Function.update_self, Function.update_self]; exact hAB
  · rw [Function.update_of_ne e, Function.update_of_ne e]; exact h x (by omega)

theorem init_rel (R : Reg) (g : Nat) (b : Bool) : RegRel { V1.initReg g with boundary := b } (initReg R g) :=
  ⟨rfl, rfl, by simp [V1.initReg], by simp [V1.initReg]⟩

/-- The points made so far. -/
def PR (n : Nat) (vp : Nat → V1.Point) (lp : Nat → Point) : Prop := ∀ a < n, lp a = projP (vp a)

theorem PR.set {lp : Nat → Point} (h : PR n pts lp) {i : Nat} {A : V1.Point} {B : Point} (hAB : i < n → B = projP A) :
    PR n (update pts i A) (update lp i B) := by
  intro a ha
  by_cases e : a = i
  · subst e; rw [Function.update_self, Function.update_self]; exact hAB ha
  · rw [Function.update_of_ne e, Function.update_of_ne e]; exact h a ha

theorem PR.extend {lp : Nat → Point} (h : PR n pts lp) {A : V1.Point} {B : Point} (hAB : B = projP A) :
    PR (n + 1) (update pts n A) (update lp n B) := by
  intro a ha
  by_cases e : a = n
  · subst e; rw [Function.update_self, Function.update_self]; exact hAB
  · rw [Function.update_of_ne e, Function.update_of_ne e]; exact h a (by omega)

theorem accumulate_eq {x y k : Nat} {c c' : V1.Comp} {pts' : Nat → V1.Point} {lp : Nat → Point}
    (h : V1.accumulate x y k c pts = some (c', pts')) (hp : PR k pts lp) :
    ∃ lp', accumulate x y k (projC c) lp = some (projC c', lp') ∧ PR (k + 1) pts' lp' := by
  unfold V1.accumulate at h
  unfold accumulate
  by_cases hs : 0 < c.size
  · have hs' : 0 < (projC c).size := hs
    rw [if_pos hs] at h
    rw [if_pos hs']
    cases hh : c.head with
    | none => rw [hh] at h; simp at h
    | some a =>
      rw [hh] at h
      have hh' : (projC c).head = some a := hh
      rw [hh']
      simp only [Option.some.injEq, Prod.mk.injEq] at h
      obtain ⟨rfl, rfl⟩ := h
      refine ⟨_, rfl, ?_⟩
      have h1 := hp.extend (A := { x := x, y := y, next := some a, prev := none, ref := none })
        (B := { x := x, y := y, next := some a, prev := none }) rfl
      exact h1.set fun hlt => by rw [h1 a hlt]; rfl
  · have hs' : ¬ 0 < (projC c).size := hs
    rw [if_neg hs] at h
    rw [if_neg hs']
    simp only [Option.some.injEq, Prod.mk.injEq] at h
    obtain ⟨rfl, rfl⟩ := h
    exact ⟨_, rfl, hp.extend rfl⟩

theorem mergeComp_eq {m : Nat} {c1 c2 d : V1.Comp} {vr' : Nat → V1.Reg} {pts' : Nat → V1.Point} {lp : Nat → Point}
    (h : V1.mergeComp c1 c2 vr pts = some (d, vr', pts')) {a b : Nat} (h1 : c1.head = some a) (h2 : c1.tail = some b)
    (hR : RR n vr lr) (hp : PR m pts lp) (hn1 : c1.region < n) :
    ∃ lr' lp', mergeComp (projC c1) (projC c2) lr lp = some (projC d, lr', lp') ∧
      RR n vr' lr' ∧ PR m pts' lp' ∧ d.region = c2.region ∧ d.gray = c2.gray ∧ (c2.size = 0 → d.head = some a) ∧
      (c2.size ≠ 0 → d.head = c2.head) ∧ d.tail = some b := by
  have e1 : (projC c1).head = some a := h1
  have e2 : (projC c1).tail = some b := h2
  have hR1 : RR n (update vr c1.region { vr c1.region with parent := some c2.region })
      (update lr c1.region { lr c1.region with parent := some c2.region }) := by
    have := hR c1.region hn1
    exact hR.set ⟨this.gray, rfl, this.head, this.tail⟩
  have hR2 : RR n (update (update vr c1.region { vr c1.region with parent := some c2.region }) c2.region
      { (update vr c1.region { vr c1.region with parent := some c2.region }) c2.region with
        boundary := ((update vr c1.region { vr c1.region with parent := some c2.region }) c2.region).boundary ||
          ((update vr c1.region { vr c1.region with parent := some c2.region }) c1.region).boundary })
      (update lr c1.region { lr c1.region with parent := some c2.region }) := by
    refine hR1.left fun hlt => ?_
    have := hR1 c2.region hlt
    exact ⟨this.gray, this.parent, this.head, this.tail⟩
  unfold V1.mergeComp at h
  unfold mergeComp
  simp only [e1, e2]
  by_cases hs : 0 < c2.size
  · have hs' : 0 < (projC c2).size := hs
    simp only [hs, if_true, h1] at h
    simp only [hs', if_true]
    cases ht : c2.tail with
    | none => rw [ht] at h; simp at h
    | some t =>
      have ht' : (projC c2).tail = some t := ht
      rw [ht] at h
      simp only [Option.some.injEq, Prod.mk.injEq] at h
      obtain ⟨rfl, rfl, rfl⟩ := h
      rw [ht']
      have hp1 : PR m (update pts t { pts t with next := some a }) (update lp t { lp t with next := some a }) :=
        hp.set fun hlt => by rw [hp t hlt]; rfl
      refine ⟨_, _, ?_, hR2, hp1.set (i := a)
        (B := { (update lp t { lp t with next := some a }) a with prev := some t }) fun hlt => ?_, rfl, rfl, fun e => by omega, fun _ => rfl, h2⟩
      · simp only [Option.some.injEq, Prod.mk.injEq]
        exact ⟨by simp [projC, h2], rfl, trivial⟩
      · rw [hp1 a hlt]; rfl
  · have hs' : ¬ 0 < (projC c2).size := hs
    simp only [hs, if_false] at h
    simp only [hs', if_false]
    simp only [Option.some.injEq, Prod.mk.injEq] at h
    obtain ⟨rfl, rfl, rfl⟩ := h
    refine ⟨_, _, ?_, hR2, hp, rfl, rfl, fun _ => h1, fun e => by omega, h2⟩
    simp only [Option.some.injEq, Prod.mk.injEq]
    exact ⟨by simp [projC, h1, h2], rfl, trivial⟩

theorem raise_eq {D : Dim} {l : Nat} {c : V1.Comp} (hR : RR n vr lr) (hn : n < D.area) (hc : c.region < n) :
    ∃ lr', raise D l (projC c) lr n = some (projC (V1.raise l c vr n).1, lr', n + 1) ∧
      RR (n + 1) (V1.raise l c vr n).2.1 lr' := by
  unfold raise
  rw [if_pos hn]
  refine ⟨_, rfl, ?_⟩
  simp only [V1.raise]
  have hR1 : RR n (update vr c.region { vr c.region with parent := some n })
      (update lr c.region { lr c.region with parent := some n }) := by
    have := hR c.region hc
    exact hR.set ⟨this.gray, rfl, this.head, this.tail⟩
  exact hR1.extend (init_rel _ _ _)

/-- A component with pixels has a first and a last point. -/
def Filled (c : V1.Comp) : Prop := 0 < c.size → (∃ a, c.head = some a) ∧ ∃ b, c.tail = some b

theorem mergeLoop_eq {D : Dim} {l q : Nat} : ∀ (rest : List V1.Comp) {c : V1.Comp} {vr : Nat → V1.Reg} {lr : Nat → Reg}
    {pts : Nat → V1.Point} {lp : Nat → Point} {m : V1.Merged},
    V1.mergeLoop l c rest vr n pts = some m → (∃ a, c.head = some a) → (∃ b, c.tail = some b) →
    RR n vr lr → PR q pts lp → c.region < n → (∀ d ∈ rest, d.region < n ∧ Filled d) → m.nreg ≤ D.area →
    ∃ lr' lp', mergeLoop D l (projC c) (rest.map projC) lr n lp = some ⟨m.comps.map projC, lr', m.nreg, lp'⟩ ∧
      RR m.nreg m.regs lr' ∧ PR q m.pts lp'
  | [], c, vr, lr, pts, lp, m, h, _, _, _, _, _, _, _ => by simp [V1.mergeLoop] at h
  | d :: rest, c, vr, lr, pts, lp, m, h, ⟨a, ha⟩, ⟨b, hb⟩, hR, hp, hc, hd, hm => by
    unfold V1.mergeLoop at h
    cases hmc : V1.mergeComp c d vr pts with
    | none => rw [hmc] at h; simp at h
    | some o =>
      obtain ⟨d', vr', pts'⟩ := o
      rw [hmc] at h
      obtain ⟨lr', lp', k1, k2, k8, k3, k4, k5, k6, k7⟩ := mergeComp_eq hmc ha hb hR hp hc
      have hdr := hd d (by simp)
      simp only [List.map_cons]
      unfold mergeLoop
      rw [k1]
      have hg : (projC d').gray = d'.gray := rfl
      simp only [hg] at h ⊢
      by_cases hl : l ≤ d'.gray
      · simp only [hl, if_true] at h ⊢
        obtain rfl : _ = m := by simpa using h
        exact ⟨lr', lp', rfl, k2, k8⟩
      · simp only [hl, if_false] at h ⊢
        cases rest with
        | nil => simp at h
        | cons e rest' =>
          have hg' : (projC e).gray = e.gray := rfl
          simp only [List.map_cons, hg'] at h ⊢
          by_cases hle : l < e.gray
          · simp only [hle, if_true] at h ⊢
            obtain rfl : _ = m := by simpa using h
            obtain ⟨lr'', j1, j2⟩ := raise_eq (D := D) (l := l) (c := d') k2 (Nat.lt_of_succ_le (by simpa [V1.raise] using hm)) (by rw [k3]; exact hdr.1)
            rw [j1]
            exact ⟨lr'', lp', rfl, j2, k8⟩
          · simp only [hle, if_false] at h ⊢
            refine mergeLoop_eq (e :: rest') h ?_ ⟨b, k7⟩ k2 k8 (by rw [k3]; exact hdr.1) (fun x hx => hd x (by simp [hx])) hm
            by_cases hs : d.size = 0
            · exact ⟨a, k5 hs⟩
            · rw [k6 hs]; exact (hdr.2 (by omega)).1

end

/-! ### The simulation relation -/

/-- A state of V1 and a state of the linear detector. -/
structure Rel (D : Dim) (val : Nat → Nat → Nat) (v : V1.St) (l : St) : Prop where
  wpx : ∀ i ∈ (patchL D val).px, l.words i = pack (v.vis i) (v.dir i) ((patchL D val).gray i) ∧ v.dir i ≤ nds D.eight
  wout : ∀ i < D.cells, i ∉ (patchL D val).px → l.words i = 0xffff
  lay : Lay (histOf (patchL D val)) 0 ⟨fun _ => 0, l.heap, l.top⟩ v.heap
  lvl : l.lvl = v.lvl
  comps : l.comps = v.comps.map projC
  regs : RR v.nreg v.regs l.regs
  nreg : l.nreg = v.nreg
  cur : l.cur = v.cur
  pts : PR v.npts v.pts l.pts
  npts : l.npts = v.npts

/-- The geometry of the abstract flooding. -/
abbrev geoL (D : Dim) : V1.Geo := V1.geoV1 D.w D.h 0 0 (fun _ => false)

section
variable {D : Dim} {val : Nat → Nat → Nat} {v : V1.St} {l : St} {s : Flood.St} {cs : List Flood.Comp} {F : Finset Nat}
  {vcs : List V1.Comp} {pix : Nat → Nat} {L : Nat → List Nat} {pts0 : Nat → V1.Point}

theorem push_eq {heap : Nat → List Nat} {b : Buf} (hL : Lay (histOf (patchL D val)) 0 ⟨fun _ => 0, b.heap, b.top⟩ heap)
    (hP : (patchL D val).OK) (hlen : ∀ k, (heap k).length ≤ histOf (patchL D val) k) {k x : Nat} (hk : k ≤ 256)
    (hroom : (heap k).length + 1 ≤ histOf (patchL D val) k) :
    push D b k x = some { b with top := update b.top k (b.top k + 1), heap := update b.heap (b.top k + 1) (some x) } ∧
    Lay (histOf (patchL D val)) 0 ⟨fun _ => 0, update b.heap (b.top k + 1) (some x), update b.top k (b.top k + 1)⟩
      (update heap k (x :: heap k)) := by
  refine ⟨?_, hL.push hk (fun k _ => hlen k) hroom _⟩
  unfold push
  rw [if_pos]
  refine ⟨hk, ?_⟩
  have h1 := hL.top k hk
  simp only at h1
  have h2 := FloodMem.offset_lt (hist := histOf (patchL D val)) (show k < 257 by omega)
  have h3 := FloodMem.offset_total hP
  rw [patchL_card] at h3
  unfold Dim.hsize
  omega

theorem tour_eq (hP : (patchL D val).OK) (hI : Flood.Inv (patchL D val) s cs F)
    (hS : V1.Sim (patchL D val) (geoL D) 0 pts0 v s F vcs pix L) (h : Rel D val v l) (hn : v.dir v.cur < nds D.eight)
    {v' : V1.St} (hv : V1.tour (patchL D val) v = .next v') (hnreg : v'.nreg ≤ D.area)
    (hlen : ∀ k, (v'.heap k).length ≤ histOf (patchL D val) k) :
    ∃ l', tour D l = .next l' ∧ Rel D val v' l' := by
  have hcur : v.cur = s.cur := hS.cur
  have hcp : v.cur ∈ (patchL D val).px := by rw [hcur]; exact hI.cur_px
  obtain ⟨hw, hd⟩ := h.wpx _ hcp
  have hg0 := hP.gray_lt _ hcp
  have hgl : (patchL D val).gray v.cur = v.lvl := by rw [hS.lvl, hcur]; exact hI.cur_gray
  have hlen0 : ∀ k, (v.heap k).length ≤ histOf (patchL D val) k := by
    intro k; rw [hS.heap]; exact hI.core.len_le k
  unfold tour
  rw [h.cur, hw, pack_dir hd hg0, shift9, nbr_eq hcp hn]
  simp only
  unfold V1.tour at hv
  simp only at hv
  have hq0 : (patchL D val).nb v.cur (v.dir v.cur + 1) < D.cells := nb_lt hcp hn
  generalize hq : (patchL D val).nb v.cur (v.dir v.cur + 1) = q at *
  -- the neighbour
  have hqv : v.vis q = false → q ∈ (patchL D val).px ∧ q ≠ v.cur := by
    intro e
    have h1 : s.cnt q = 0 := (hS.vis q).1 e
    have h2 : s.nbr = v.dir v.cur + 1 := by rw [hcur]; exact hS.nbr
    have h3 := hI.unvisited (by rw [h2]; exact hn) (by rw [h2, ← hcur, hq]; exact h1)
    rw [h2, ← hcur, hq] at h3
    exact ⟨h3.1, h3.2.2.2.1⟩
  have hvis : l.words q &&& 0x8000 = 0 ↔ v.vis q = false := by
    by_cases e : q ∈ (patchL D val).px
    · obtain ⟨a1, a2⟩ := h.wpx q e
      rw [a1]; exact pack_vis a2 (hP.gray_lt _ e)
    · rw [h.wout q hq0 e]
      constructor
      · intro h1; exact absurd h1 (by decide)
      · intro h1; exact absurd (hqv h1).1 e
  -- words after the counter of the current pixel was raised
  have hbump : ∀ i ∈ (patchL D val).px, bump l.words v.cur i
      = pack (v.vis i) (update v.dir v.cur (v.dir v.cur + 1) i) ((patchL D val).gray i) ∧
      update v.dir v.cur (v.dir v.cur + 1) i ≤ nds D.eight := by
    intro i hi
    unfold bump
    by_cases e : i = v.cur
    · subst e; rw [Function.update_self, Function.update_self, hw]
      exact ⟨pack_bump hd hg0, by omega⟩
    · rw [Function.update_of_ne e, Function.update_of_ne e]; exact h.wpx i hi
  by_cases hvq : v.vis q = false
  · obtain ⟨hqp, hqc⟩ := hqv hvq
    rw [if_pos (hvis.2 hvq)]
    rw [if_pos hvq] at hv
    obtain ⟨a1, a2⟩ := h.wpx q hqp
    have hgq := hP.gray_lt _ hqp
    have e1 : mark l.words q v.cur &&& 0x01ff = (patchL D val).gray v.cur := by
      unfold mark; rw [Function.update_of_ne (Ne.symm hqc), hw]; exact pack_gray hd hg0
    have e2 : mark l.words q q &&& 0x01ff = (patchL D val).gray q := by
      unfold mark; rw [Function.update_self, a1, pack_mark a2 hgq]; exact pack_gray a2 hgq
    -- the words
    have hwords : ∀ i ∈ (patchL D val).px, bump (mark l.words q) v.cur i
        = pack (update v.vis q true i) (update v.dir v.cur (v.dir v.cur + 1) i) ((patchL D val).gray i) ∧
        update v.dir v.cur (v.dir v.cur + 1) i ≤ nds D.eight := by
      intro i hi
      have h1 := hbump i hi
      refine ⟨?_, h1.2⟩
      unfold bump mark at *
      by_cases e : i = v.cur
      · subst e
        rw [Function.update_self, Function.update_of_ne (Ne.symm hqc), Function.update_of_ne (Ne.symm hqc)]
        rw [Function.update_self] at h1; exact h1.1
      · by_cases e' : i = q
        · subst e'
          rw [Function.update_of_ne hqc, Function.update_self, Function.update_self, Function.update_of_ne hqc, a1]
          exact pack_mark a2 hgq
        · rw [Function.update_of_ne e, Function.update_of_ne e', Function.update_of_ne e']
          rw [Function.update_of_ne e] at h1; exact h1.1
    have hwout : ∀ i < D.cells, i ∉ (patchL D val).px → bump (mark l.words q) v.cur i = 0xffff := by
      intro i hi ho
      unfold bump mark
      rw [Function.update_of_ne (by rintro rfl; exact ho hcp), Function.update_of_ne (by rintro rfl; exact ho hqp)]
      exact h.wout i hi ho
    simp only [e1, e2]
    by_cases hlt : (patchL D val).gray q < (patchL D val).gray v.cur
    · rw [if_pos hlt]
      rw [if_pos hlt] at hv
      by_cases hcap : v.comps.length < (patchL D val).cap
      · rw [if_pos hcap] at hv
        obtain rfl : _ = v' := by simpa using hv
        simp only at hnreg hlen
        have hroom : (v.heap v.lvl).length + 1 ≤ histOf (patchL D val) v.lvl := by
          have := hlen v.lvl; simpa using this
        obtain ⟨p1, p2⟩ := push_eq (b := l.toBuf) (k := v.lvl) (x := v.cur) h.lay hP hlen0 (by omega) hroom
        rw [h.lvl, p1]
        simp only
        have hlc : l.comps.length < 258 := by rw [h.comps, List.length_map]; exact hcap
        rw [if_pos ⟨hlc, by rw [h.nreg]; omega, by omega⟩]
        refine ⟨_, rfl, hwords, hwout, p2, rfl, ?_, ?_, ?_, rfl, h.pts, h.npts⟩
        · simp only [List.map_cons, h.comps, h.nreg]; rfl
        · simp only [h.nreg]; exact h.regs.extend (init_rel (l.regs v.nreg) _ false)
        · simp only [h.nreg]
      · rw [if_neg hcap] at hv; simp at hv
    · rw [if_neg hlt]
      rw [if_neg hlt] at hv
      obtain rfl : _ = v' := by simpa using hv
      simp only at hnreg hlen
      have hk : v.lvl + ((patchL D val).gray q - (patchL D val).gray v.cur)
          = v.lvl + (patchL D val).gray q - (patchL D val).gray v.cur := by omega
      have hroom := hlen (v.lvl + (patchL D val).gray q - (patchL D val).gray v.cur)
      rw [Function.update_self, List.length_cons] at hroom
      obtain ⟨p1, p2⟩ := push_eq (b := l.toBuf) (k := v.lvl + (patchL D val).gray q - (patchL D val).gray v.cur)
        (x := q) h.lay hP hlen0 (by omega) hroom
      rw [h.lvl, hk, p1]
      simp only
      exact ⟨_, rfl, hwords, hwout, p2, rfl, h.comps, h.regs, h.nreg, rfl, h.pts, h.npts⟩
  · rw [if_neg (fun e => hvq (hvis.1 e))]
    rw [if_neg hvq] at hv
    obtain rfl : _ = v' := by simpa using hv
    refine ⟨_, rfl, hbump, ?_, h.lay, h.lvl, h.comps, h.regs, h.nreg, rfl, h.pts, h.npts⟩
    intro i hi ho
    unfold bump
    simp only
    rw [Function.update_of_ne (by rintro rfl; exact ho hcp)]
    exact h.wout i hi ho

theorem scan_eq {heap : Nat → List Nat} {b : Buf} (hL : Lay (histOf (patchL D val)) 0 ⟨fun _ => 0, b.heap, b.top⟩ heap)
    (hin : ∀ k ≤ 256, b.top k < D.hsize) :
    ∀ n k, k + n ≤ 257 → scan D b n k k = some ((Flood.scan heap n k).map fun j => (j, j))
  | 0, k, _ => rfl
  | n + 1, k, hle => by
    have h1 := hin k (by omega)
    have h2 := (hL.stk k (by omega)).top
    have h3 := hL.top k (by omega)
    simp only at h2 h3
    rw [← h3] at h2
    simp only [scan, Flood.scan, h1, h2, show k ≤ 256 by omega, and_self, if_true]
    cases hh : heap k with
    | nil => simpa using scan_eq hL hin n (k + 1) (by omega)
    | cons x xs => simp

theorem finish_eq (hP : (patchL D val).OK) (hI : Flood.Inv (patchL D val) s cs F)
    (hS : V1.Sim (patchL D val) (geoL D) 0 pts0 v s F vcs pix L) (h : Rel D val v l) :
    match V1.finish (patchL D val) (geoL D) v with
    | .next v' => v'.nreg ≤ D.area → ∃ l', finish D l = .next l' ∧ Rel D val v' l'
    | .done v' => ∃ l', finish D l = .done l' ∧ Rel D val v' l' ∧
        ∀ k ≤ 256, l'.top k = FloodMem.offset (histOf (patchL D val)) k
    | .ub => True := by
  have hcur : v.cur = s.cur := hS.cur
  have hcp : v.cur ∈ (patchL D val).px := by rw [hcur]; exact hI.cur_px
  have hg0 := hP.gray_lt _ hcp
  obtain ⟨hw, hd⟩ := h.wpx _ hcp
  have hgl : (patchL D val).gray v.cur = v.lvl := by rw [hS.lvl, hcur]; exact hI.cur_gray
  have hlen0 : ∀ k, (v.heap k).length ≤ histOf (patchL D val) k := by
    intro k; rw [hS.heap]; exact hI.core.len_le k
  have hin : ∀ k ≤ 256, l.top k < D.hsize := by
    intro k hk
    have h1 := h.lay.top k hk
    simp only at h1
    have h2 := FloodMem.offset_lt (hist := histOf (patchL D val)) (show k < 257 by omega)
    have h3 := FloodMem.offset_total hP
    rw [patchL_card] at h3
    have := hlen0 k
    unfold Dim.hsize
    omega
  have hFc : F.card + 1 ≤ D.area := by
    rw [← patchL_card (D := D) (val := val), ← Finset.card_insert_of_notMem hI.cur_F]
    apply Finset.card_le_card
    intro i hi
    rcases Finset.mem_insert.1 hi with rfl | hi
    · exact hI.cur_px
    · exact hI.core.F_px i hi
  have hnp : v.npts < D.area := by have := hS.npts; omega
  have hstart : D.start ≤ v.cur := (px_bounds hcp).1
  -- the components
  have hfill : ∀ c ∈ v.comps, c.region < v.nreg ∧ Filled c := by
    intro c hc
    rw [hS.comps] at hc
    rcases List.mem_append.1 hc with hc | hc
    · refine ⟨(hS.li.cs_lt c hc).1, fun hs => ?_⟩
      have hC := hS.li.comp c hc
      have hne : L c.region ≠ [] := by
        intro e; have := hC.size; rw [e] at this; simp at this; omega
      refine ⟨?_, ?_⟩
      · rw [hC.head hne]; exact ⟨_, List.head?_eq_some_head hne⟩
      · rw [hC.tail hne]; exact ⟨_, List.getLast?_eq_some_getLast hne⟩
    · simp at hc; subst hc
      refine ⟨?_, fun hs => by simp [V1.initComp] at hs⟩
      rw [hS.nreg]
      obtain ⟨c, rest, hcs, -⟩ := hI.core.cs_top
      have := (hI.core.cs_reg c (by rw [hcs]; simp)).1
      simp only [V1.initComp]; omega
  unfold V1.finish finish
  rw [h.comps]
  match hcm : v.comps with
  | [] => trivial
  | [c] => trivial
  | c :: d :: rest =>
    simp only [List.map_cons]
    rw [if_pos ⟨by rw [h.npts]; exact hnp, by rw [h.cur]; exact hstart, by rw [h.lvl]; omega,
      by rw [h.lvl]; exact hin _ (by omega)⟩]
    have ex : V1.cellX (patchL D val) (geoL D) v.cur + (geoL D).left
        = v.cur - D.start - (v.cur - D.start) / (D.w + 2) * (D.w + 2) := by
      unfold V1.cellX V1.cellY; rw [patchL_start]; rfl
    have ey : V1.cellY (patchL D val) (geoL D) v.cur + (geoL D).top = (v.cur - D.start) / (D.w + 2) := by
      unfold V1.cellY; rw [patchL_start]; rfl
    simp only [ex, ey]
    generalize hreg1 : update v.regs c.region { v.regs c.region with
      boundary := (v.regs c.region).boundary || V1.flagged (patchL D val) (geoL D) v.cur } = regs1
    have hR1 : RR v.nreg regs1 l.regs := by
      rw [← hreg1]
      refine h.regs.left fun hlt => ?_
      have := h.regs c.region hlt
      exact ⟨this.gray, this.parent, this.head, this.tail⟩
    cases hacc : V1.accumulate (v.cur - D.start - (v.cur - D.start) / (D.w + 2) * (D.w + 2))
      ((v.cur - D.start) / (D.w + 2)) v.npts c v.pts with
    | none => trivial
    | some o =>
      obtain ⟨c', pts'⟩ := o
      obtain ⟨lp', hacc', hp'⟩ := accumulate_eq hacc h.pts
      simp only [h.cur, h.npts, hacc', h.lvl]
      -- the new top component
      have hc'0 : c'.region = c.region ∧ c'.gray = c.gray := by
        unfold V1.accumulate at hacc
        split at hacc
        · split at hacc
          · simp at hacc
          · simp only [Option.some.injEq, Prod.mk.injEq] at hacc
            obtain ⟨rfl, -⟩ := hacc; exact ⟨rfl, rfl⟩
        · simp only [Option.some.injEq, Prod.mk.injEq] at hacc
          obtain ⟨rfl, -⟩ := hacc; exact ⟨rfl, rfl⟩
      have hcf := hfill c (by rw [hcm]; simp)
      obtain ⟨a, ha⟩ : ∃ a, c'.head = some a := by
        unfold V1.accumulate at hacc
        split at hacc
        · split at hacc
          · simp at hacc
          · simp only [Option.some.injEq, Prod.mk.injEq] at hacc
            obtain ⟨rfl, -⟩ := hacc; exact ⟨_, rfl⟩
        · simp only [Option.some.injEq, Prod.mk.injEq] at hacc
          obtain ⟨rfl, -⟩ := hacc; exact ⟨_, rfl⟩
      obtain ⟨b, hb⟩ : ∃ b, c'.tail = some b := by
        unfold V1.accumulate at hacc
        split at hacc
        · rename_i hs
          split at hacc
          · simp at hacc
          · simp only [Option.some.injEq, Prod.mk.injEq] at hacc
            obtain ⟨rfl, -⟩ := hacc; exact (hcf.2 hs).2
        · simp only [Option.some.injEq, Prod.mk.injEq] at hacc
          obtain ⟨rfl, -⟩ := hacc; exact ⟨_, rfl⟩
      have hlk : v.lvl ≤ 256 := by omega
      have ht := (h.lay.stk v.lvl hlk).top
      have ht' := h.lay.top v.lvl hlk
      simp only at ht ht'
      rw [← ht'] at ht
      rw [ht]
      cases hh : v.heap v.lvl with
      | cons p ps =>
        simp only [List.head?_cons]
        intro _
        exact ⟨_, rfl, h.wpx, h.wout, h.lay.pop hlk hh _, rfl, rfl, hR1, h.nreg, rfl, hp', rfl⟩
      | nil =>
        simp only [List.head?_nil]
        have hst : store (projC c') l.regs = some (update l.regs c'.region
            { l.regs c'.region with head := a, tail := b, size := c'.size }) := by
          unfold store
          rw [show (projC c').head = some a from ha, show (projC c').tail = some b from hb]
          rfl
        rw [hst]
        have hR2 : RR v.nreg (V1.store c' regs1) (update l.regs c'.region
            { l.regs c'.region with head := a, tail := b, size := c'.size }) := by
          unfold V1.store
          have := hR1 c'.region (by rw [hc'0.1]; exact hcf.1)
          refine hR1.set ⟨this.gray, this.parent, ?_, ?_⟩
          · intro x hx; simp only [ha, Option.some.injEq] at hx; exact ⟨hx, rfl⟩
          · intro x hx; simp only [hb, Option.some.injEq] at hx; exact hx
        have hgw : l.words v.cur &&& 0x01ff = v.lvl := by rw [hw, pack_gray hd hg0, hgl]
        simp only [hgw]
        have hscan := scan_eq h.lay (b := { l.toBuf with pts := lp' }) hin (256 - v.lvl) (v.lvl + 1) (by omega)
        rw [hgl]
        simp only [hscan]
        cases hsc : Flood.scan v.heap (256 - v.lvl) (v.lvl + 1) with
        | none =>
          simp only [Option.map_none]
          refine ⟨_, rfl, ⟨h.wpx, h.wout, h.lay, rfl, rfl, hR2, h.nreg, rfl, hp', rfl⟩, ?_⟩
          intro k hk
          have h1 := h.lay.top k hk
          have h2 : v.heap k = [] := by
            rcases Nat.lt_trichotomy k v.lvl with h3 | h3 | h3
            · rw [hS.heap]; exact hI.core.heap_low k (by rw [← hS.lvl]; exact h3)
            · rw [h3]; exact hh
            · exact Flood.scan_none hsc k (by omega) (by omega)
          rw [h2] at h1
          simpa using h1
        | some k =>
          simp only [Option.map_some]
          obtain ⟨k1, k2, k3, k4⟩ := Flood.scan_some hsc
          have hkk : k ≤ 256 := by omega
          have htk := (h.lay.stk k hkk).top
          have htk' := h.lay.top k hkk
          simp only at htk htk'
          rw [← htk'] at htk
          rw [htk]
          cases hhk : v.heap k with
          | nil => exact absurd hhk k3
          | cons p ps =>
            simp only [List.head?_cons]
            have hdg : (projC d).gray = d.gray := rfl
            simp only [hdg, h.nreg]
            by_cases hld : k < d.gray
            · simp only [hld, if_true]
              intro hnr
              obtain ⟨lr', j1, j2⟩ := raise_eq (D := D) (l := k) (c := c') hR2 (Nat.lt_of_succ_le (by simpa [V1.raise] using hnr))
                (by rw [hc'0.1]; exact hcf.1)
              rw [j1]
              exact ⟨_, rfl, h.wpx, h.wout, h.lay.pop hkk hhk _, rfl, rfl, j2, rfl, rfl, hp', rfl⟩
            · simp only [hld, if_false]
              cases hml : V1.mergeLoop k c' (d :: rest) (V1.store c' regs1) v.nreg pts' with
              | none => trivial
              | some m =>
                simp only
                intro hnr
                obtain ⟨lr', lp'', j1, j2, j3⟩ := mergeLoop_eq (D := D) (d :: rest) hml ⟨a, ha⟩ ⟨b, hb⟩ hR2 hp'
                  (by rw [hc'0.1]; exact hcf.1) (fun x hx => hfill x (by rw [hcm]; simp at hx ⊢; tauto)) hnr
                rw [List.map_cons] at j1
                rw [j1]
                exact ⟨_, rfl, h.wpx, h.wout, h.lay.pop hkk hhk _, rfl, rfl, j2, rfl, rfl, j3, rfl⟩

/-- One step. -/
theorem step_eq (hP : (patchL D val).OK) (hI : Flood.Inv (patchL D val) s cs F)
    (hS : V1.Sim (patchL D val) (geoL D) 0 pts0 v s F vcs pix L) (h : Rel D val v l) :
    match V1.step (patchL D val) (geoL D) v with
    | .next v' => v'.nreg ≤ D.area → (∀ k, (v'.heap k).length ≤ histOf (patchL D val) k) →
        ∃ l', step D l = .next l' ∧ Rel D val v' l'
    | .done v' => ∃ l', step D l = .done l' ∧ Rel D val v' l' ∧
        ∀ k ≤ 256, l'.top k = FloodMem.offset (histOf (patchL D val)) k
    | .ub => True := by
  have hcp : v.cur ∈ (patchL D val).px := by rw [hS.cur]; exact hI.cur_px
  have hg0 := hP.gray_lt _ hcp
  obtain ⟨hw, hd⟩ := h.wpx _ hcp
  unfold step V1.step
  rw [h.cur, hw, pack_dir hd hg0, dirMax_eq, patchL_nd]
  by_cases hn : v.dir v.cur < nds D.eight
  · rw [if_pos hn, if_pos (by omega)]
    cases hv : V1.tour (patchL D val) v with
    | next v' => intro h1 h2; exact tour_eq hP hI hS h hn hv h1 h2
    | done v' =>
      exfalso
      unfold V1.tour at hv
      simp only at hv
      split at hv
      · split at hv
        · split at hv <;> simp at hv
        · simp at hv
      · simp at hv
    | ub => trivial
  · rw [if_neg hn, if_neg (by omega)]
    have := finish_eq hP hI hS h
    revert this
    cases V1.finish (patchL D val) (geoL D) v with
    | next v' => exact fun h1 h2 _ => h1 h2
    | done v' => exact id
    | ub => exact id

theorem geoL_ok : (geoL D).OK (patchL D val) :=
  V1.geoV1_ok (eight := D.eight) (img := val) (gm := 0) (left := 0) (top := 0) (joined := fun _ => false)

/-- A whole pass. -/
theorem run_sim (hP : (patchL D val).OK) : ∀ (n : Nat) {v : V1.St} {l : St} {s : Flood.St} {cs : List Flood.Comp}
    {F : Finset Nat} {vcs : List V1.Comp} {pix : Nat → Nat} {L : Nat → List Nat},
    Flood.Inv (patchL D val) s cs F → V1.Sim (patchL D val) (geoL D) 0 pts0 v s F vcs pix L → Rel D val v l →
    match Flood.run (patchL D val) n s with
    | .next _ => ∃ l', run D n l = .next l'
    | .done s' => ∃ v' l', V1.run (patchL D val) (geoL D) n v = .done v' ∧ run D n l = .done l' ∧ Rel D val v' l' ∧
        (∀ k ≤ 256, l'.top k = FloodMem.offset (histOf (patchL D val)) k) ∧
        (∃ c, Flood.Final (patchL D val) s' c) ∧ ∃ c pix' L', V1.Done (patchL D val) (geoL D) 0 pts0 v' s' c pix' L'
    | .ub => True
  | 0, v, l, s, cs, F, vcs, pix, L, _, _, _ => ⟨l, rfl⟩
  | n + 1, v, l, s, cs, F, vcs, pix, L, hI, hS, h => by
    have h1 := V1.sim_step hP geoL_ok hI hS
    have h2 := step_eq hP hI hS h
    simp only [Flood.run, V1.run, run]
    revert h1
    cases Flood.step (patchL D val) s with
    | next s' =>
      rintro ⟨v', h1, cs', F', vcs', pix', L', h3, h4⟩
      rw [h1] at h2
      obtain ⟨l', h5, h6⟩ := h2 (by rw [h4.nreg, ← patchL_card (D := D) (val := val)]; exact h3.nreg_le)
        (fun k => by rw [h4.heap]; exact h3.core.len_le k)
      rw [h5, h1]
      exact run_sim hP n h3 h4 h6
    | done s' =>
      rintro ⟨v', h1, h3, h4⟩
      rw [h1] at h2
      obtain ⟨l', h5, h6, h7⟩ := h2
      rw [h5, h1]
      exact ⟨v', l', rfl, rfl, h6, h7, h3, h4⟩
    | ub => intro _; trivial

theorem init_sim (hP : (patchL D val).OK) {b : Buf} (h0 : b.top 0 = 0) (pts : Nat → V1.Point)
    (border : Nat → Nat → Option Nat) :
    Rel D val (V1.init (patchL D val) 0 pts border) (init D (preProcess D val b)) := by
  obtain ⟨h1, h2, h3, h4, h5, h6⟩ := preProcess_spec (D := D) (val := val) b h0
  have hs := hP.start_mem
  have hst : D.start = (patchL D val).start := (patchL_start).symm
  have hwp : ∀ i ∈ (patchL D val).px, (preProcess D val b).words i = pack false 0 ((patchL D val).gray i) := by
    intro i hi
    obtain ⟨x, y, hx, hy, rfl⟩ := mem_pxL.1 hi
    rw [h1 x y hx hy, patchL_gray hx]
    simp [pack]
  have hw0 : (preProcess D val b).words D.start &&& 0x01ff = (patchL D val).gray (patchL D val).start := by
    rw [hst, hwp _ hs]; exact pack_gray (e := D.eight) (Nat.zero_le _) (hP.gray_lt _ hs)
  refine ⟨?_, ?_, ⟨?_, ?_⟩, ?_, ?_, ?_, rfl, hst, ?_, rfl⟩
  · intro i hi
    simp only [init, V1.init, mark, hst]
    refine ⟨?_, by simp⟩
    by_cases e : i = (patchL D val).start
    · subst e
      rw [Function.update_self, Function.update_self, hwp _ hs]
      exact pack_mark (e := D.eight) (Nat.zero_le _) (hP.gray_lt _ hs)
    · rw [Function.update_of_ne e, Function.update_of_ne e, hwp _ hi]
      simp [hi]
  · intro i hi ho
    simp only [init, mark, hst]
    rw [Function.update_of_ne (by rintro rfl; exact ho hs)]
    exact h2 i hi ho
  · intro k hk; simp only [init, V1.init, List.length_nil]; rw [h3 k hk]; omega
  · intro k hk; simp only [init, V1.init, Nat.zero_add]; exact h4 k hk
  · simp only [init, V1.init]
    rw [hst, hwp _ hs, pack_mark (e := D.eight) (Nat.zero_le _) (hP.gray_lt _ hs)]
    exact pack_gray (e := D.eight) (Nat.zero_le _) (hP.gray_lt _ hs)
  · simp only [init, V1.init, hw0]; rfl
  · intro r hr
    simp only [V1.init] at hr
    obtain rfl : r = 0 := by omega
    simp only [init, V1.init, hw0, Function.update_self]
    exact init_rel _ _ false
  · intro a ha; simp only [V1.init] at ha; omega

end

end Verif.Linear
