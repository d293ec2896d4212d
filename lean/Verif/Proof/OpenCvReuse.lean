import Verif.Proof.OpenCvFlood

/-!
# The OpenCV detector: what the buffers contained does not matter

Two passes over the same image, with different contents of `m_history`, `m_points` and of the cells that are never looked at, go through
the same steps.
-/

namespace Verif.OpenCv

open Function (update)
open Verif.Flood (Patch scan below mem_below)
open Verif.Recog (Cfg)
open Relation (ReflTransGen)

/-- The first `n` entries agree. -/
def Upto {α : Type} (n : Nat) (f g : Nat → α) : Prop := ∀ k < n, g k = f k

theorem Upto.update {α : Type} {n : Nat} {f g : Nat → α} (h : Upto n f g) (i : Nat) {a b : α} (hab : i < n → b = a) :
    Upto n (update f i a) (update g i b) := by
  intro k hk
  by_cases e : k = i
  · subst e; simpa using hab hk
  · rw [Function.update_of_ne e, Function.update_of_ne e]; exact h k hk

theorem Upto.push {α : Type} {n : Nat} {f g : Nat → α} (h : Upto n f g) (a : α) :
    Upto (n + 1) (Function.update f n a) (Function.update g n a) := by
  intro k hk
  by_cases e : k = n
  · subst e; simp
  · rw [Function.update_of_ne e, Function.update_of_ne e]; exact h k (by omega)

variable {H H' : Nat → Hist} {pts pts' : Nat → LPoint} {n : Nat} {cfg : Cfg}

theorem backLoop_upto (h : HistI H n) (a : Upto n H H') (delta val : Int) :
    ∀ (f s : Nat), s < n → backLoop H' delta val f s = backLoop H delta val f s
  | 0, _, _ => rfl
  | f + 1, s, hs => by
    have := (h.path s hs).le
    unfold backLoop
    rw [a s hs, backLoop_upto h a delta val f (H s).shortCut (by omega)]

theorem foreLoop_upto (a : Upto n H H') (delta val : Int) {i : Nat} (hin : i < n) (hi : (H i).child = i) :
    ∀ (f s : Nat), CPath H s i → foreLoop H' delta val f s (H' s).child = foreLoop H delta val f s (H s).child
  | 0, _, _ => rfl
  | f + 1, s, hs => by
    have hle := hs.le
    have h1 : (H s).child < n ∧ ((H s).child ≠ (H (H s).child).child → CPath H (H s).child i) := by
      rcases ReflTransGen.cases_head hs with e | ⟨b, ⟨hb1, hb2⟩, hb3⟩
      · subst e; exact ⟨by omega, fun h => absurd (by rw [hi, hi]) h⟩
      · subst hb1
        have := CPath.le (H := H) hb3
        exact ⟨by omega, fun _ => hb3⟩
    rw [a s (by omega)]
    unfold foreLoop
    rw [a _ h1.1]
    by_cases hc : (H s).child ≠ (H (H s).child).child ∧ ((H (H s).child).gray : Int) + delta ≤ val
    · rw [if_pos hc, if_pos hc]
      have ih := foreLoop_upto a delta val hin hi f (H s).child (h1.2 hc.1)
      rw [a _ h1.1] at ih
      exact ih
    · rw [if_neg hc, if_neg hc]

theorem calcVar_upto (h : HistI H n) (a : Upto n H H') {i : Nat} (hin : i < n) (hi : (H i).child = i) (c : Comp) :
    ∃ q K K', calcVar cfg (n + 1) c i H = some (q, K) ∧ calcVar cfg (n + 1) c i H' = some (q, K') ∧ Upto n K K' := by
  have hp := h.path i hin
  have hle := hp.le
  obtain ⟨s1, e1, e2, e3, -⟩ := backLoop_some h cfg.delta c.gray (n + 1) (H i).shortCut (by omega) (by omega) hp
  have := e2.le
  obtain ⟨s2, f1, f2, -⟩ := foreLoop_some cfg.delta c.gray hi (n + 1) s1 (by omega) e2
  have := f2.le
  have hz := h.size s2 (by omega)
  have e1' : backLoop H' cfg.delta c.gray (n + 1) (H' i).shortCut = some s1 := by
    rw [a i hin, backLoop_upto h a _ _ _ _ (by omega)]; exact e1
  have f1' : foreLoop H' cfg.delta c.gray (n + 1) s1 (H' s1).child = some s2 := by
    rw [foreLoop_upto a _ _ hin hi _ _ e2]; exact f1
  refine ⟨cfg.r64 (((c.size : ℚ) - (H s2).size) / (H s2).size), update H i { H i with shortCut := s2 },
    update H' i { H' i with shortCut := s2 }, ?_, ?_, a.update i fun _ => by rw [a i hin]⟩
  · simp only [calcVar, e1, f1, Option.bind_some]
    rw [if_neg (by omega)]
  · simp only [calcVar, e1', f1', Option.bind_some]
    rw [a s2 (by omega), if_neg (by omega)]

theorem isStable_upto (h : HistI H n) (a : Upto n H H') (c : Comp) (hc : ∀ i, c.hist = some i → i < n ∧ (H i).child = i) :
    ∃ b c' K K', isStable cfg (n + 1) c H = some (b, c', K) ∧ isStable cfg (n + 1) c H' = some (b, c', K') ∧ Upto n K K' := by
  unfold isStable
  cases hh : c.hist with
  | none => exact ⟨_, _, _, _, rfl, rfl, a⟩
  | some i =>
    obtain ⟨h1, h2⟩ := hc i hh
    have h3 := h.size i h1
    simp only
    rw [a i h1]
    by_cases hr : ((H i).size : Int) < cfg.minPoint ∨ cfg.maxPoint < ((H i).size : Int)
    · rw [if_pos hr, if_pos hr]; exact ⟨_, _, _, _, rfl, rfl, a⟩
    · rw [if_neg hr, if_neg (by omega), if_neg hr, if_neg (by omega)]
      obtain ⟨q, K, K', k1, k2, k3⟩ := calcVar_upto (cfg := cfg) h a h1 h2 c
      rw [k1, k2]
      simp only [Option.bind_some]
      simp only [k3 i h1]
      refine ⟨_, _, _, _, rfl, rfl, ?_⟩
      split_ifs
      · exact k3.update i fun _ => rfl
      · exact k3

theorem mkHist_upto (a : Upto n H H') (c : Comp) (hc : ∀ i, c.hist = some i → i < n) : mkHist H' n c = mkHist H n c := by
  unfold mkHist
  cases hh : c.hist with
  | none => rfl
  | some i => simp only; rw [a i (hc i hh)]

theorem setChild_upto (a : Upto n H H') (c : Comp) (m : Nat) : Upto n (setChild H c m) (setChild H' c m) := by
  unfold setChild
  cases hh : c.hist with
  | none => exact a
  | some i => exact a.update i fun h => by rw [a i h]

theorem newHistory_upto (a : Upto n H H') (c : Comp) (hc : ∀ i, c.hist = some i → i < n) :
    (newHistory c H' n).1 = (newHistory c H n).1 ∧ Upto (n + 1) (newHistory c H n).2 (newHistory c H' n).2 := by
  refine ⟨rfl, ?_⟩
  unfold newHistory
  simp only
  rw [mkHist_upto a c hc]
  exact (setChild_upto a c n).push _

theorem maxStable_upto (a : Upto n H H') (c : Comp) (hc : ∀ i, c.hist = some i → i < n) (m : Nat) :
    maxStable H' c m = maxStable H c m := by
  unfold maxStable
  cases hh : c.hist with
  | none => rfl
  | some i => simp only; rw [a i (hc i hh)]

theorem mergeComp_upto (a : Upto n H H') {m : Nat} (b : Upto m pts pts') (c1 c2 : Comp) (h1 : ∀ i, c1.hist = some i → i < n)
    (h2 : ∀ i, c2.hist = some i → i < n) :
    match mergeComp c1 c2 H n pts with
    | none => mergeComp c1 c2 H' n pts' = none
    | some (c, K, p) => ∃ K' p', mergeComp c1 c2 H' n pts' = some (c, K', p') ∧ Upto (n + 1) K K' ∧ Upto m p p' := by
  generalize ea : (if c2.size ≤ c1.size then c1 else c2) = x
  generalize eb : (if c2.size ≤ c1.size then c2 else c1) = y
  have hx : ∀ i, x.hist = some i → i < n := by rw [← ea]; split_ifs <;> assumption
  have hy : ∀ i, y.hist = some i → i < n := by rw [← eb]; split_ifs <;> assumption
  unfold mergeComp
  simp only [ea, eb]
  rw [mkHist_upto a x hx, maxStable_upto a y hy]
  have hH := (setChild_upto a x n).push { mkHist H n x with stable := maxStable H y (mkHist H n x).stable }
  by_cases hs : 0 < c1.size ∧ 0 < c2.size
  · simp only [hs, and_self, if_true]
    cases x.tail with
    | none => rfl
    | some t =>
      cases y.head with
      | none => rfl
      | some hd => exact ⟨_, _, rfl, hH, b.update t fun ht => by rw [b t ht]⟩
  · simp only [hs, if_false]
    exact ⟨_, _, rfl, hH, b⟩

theorem accumulate_upto {m : Nat} (b : Upto m pts pts') (x y : Nat) (c : Comp) :
    match accumulate x y m c pts with
    | none => accumulate x y m c pts' = none
    | some (c', p) => ∃ p', accumulate x y m c pts' = some (c', p') ∧ Upto (m + 1) p p' := by
  unfold accumulate
  by_cases hs : 0 < c.size
  · simp only [hs, if_true]
    cases c.tail with
    | none => rfl
    | some t => exact ⟨_, rfl, (b.update t fun ht => by rw [b t ht]).push _⟩
  · simp only [hs, if_false]
    exact ⟨_, rfl, b.push _⟩

variable {E : Env} {v v' : St} {s : Flood.St} {F : Finset Nat} {T : List Trip} {pix : Nat → Nat} {cs : List Flood.Comp}

theorem raise_upto {npts : Nat} {B : Finset Nat} {c : Comp} {l : List Nat} (h : CSim E.P pts pix npts H n B c l) (hi : HistI H n)
    (a : Upto n H H') (b : Upto npts pts pts') (g : Nat) (out : List RecO) :
    match raise E g c H n pts out with
    | none => raise E g c H' n pts' out = none
    | some (c', K, o) => ∃ K', raise E g c H' n pts' out = some (c', K', o) ∧ Upto (n + 1) K K' := by
  unfold raise
  by_cases hn : n < E.area
  · simp only [hn, if_true]
    obtain ⟨st, c', K, K', k1, k2, k3⟩ := isStable_upto (cfg := E.cfg) hi a c h.hlt
    obtain ⟨st', c2, K2, e1, e2, e3, e4, e5⟩ := isStable_some (cfg := E.cfg) hi c h.hlt
    rw [k1] at e1
    obtain ⟨rfl, rfl, rfl⟩ : st = st' ∧ c' = c2 ∧ K = K2 := by simpa using e1
    rw [k1, k2]
    simp only [Option.bind_some]
    have hlt : ∀ i, c'.hist = some i → i < n := fun i hi => (h.hlt i (by rw [← e3.hist]; exact hi)).1
    obtain ⟨n1, n2⟩ := newHistory_upto k3 c' hlt
    have hinfo : toInfo E.gm c' K' pts' = toInfo E.gm c' K pts := by
      unfold toInfo
      cases hh : c'.hist with
      | none => rfl
      | some i =>
        simp only
        rw [k3 i (hlt i hh)]
        obtain ⟨j1, j2, _⟩ := h.hist i (by rw [← e3.hist]; exact hh)
        rw [← (e4 i).2.2] at j1 j2
        have hne : l ≠ [] := by rintro rfl; simp at j2; omega
        have hch : l.IsChain (fun a b => (pts' a).next = some b) := by
          refine h.chain.imp_of_mem_imp ?_
          intro x y hx _ hxy
          rw [b x (h.lt x hx)]; exact hxy
        rw [e3.head, h.head hne, readPts_eq l _ h.chain j2, readPts_eq l _ hch j2]
        have : (l.take (K i).size).map (fun p => ((pts' p).x, (pts' p).y)) = (l.take (K i).size).map (fun p => ((pts p).x, (pts p).y)) := by
          refine List.map_congr_left fun p hp => ?_
          rw [b p (h.lt p (List.mem_of_mem_take hp))]
        rw [this]
    rw [hinfo]
    cases st with
    | true =>
      simp only [if_true]
      cases toInfo E.gm c' K pts with
      | none => rfl
      | some r =>
        simp only [Option.map_some, Option.bind_some]
        exact ⟨_, by rw [n1], n2⟩
    | false =>
      simp only [Bool.false_eq_true, if_false, Option.bind_some]
      exact ⟨_, by rw [n1], n2⟩
  · simp only [hn, if_false]

/-- Two states that differ in cells never looked at and in entries not used yet. -/
structure Agree (E : Env) (v v' : St) : Prop where
  vis : ∀ i, Seen E.P i → v'.vis i = v.vis i
  dir : v'.dir = v.dir
  heap : v'.heap = v.heap
  lvl : v'.lvl = v.lvl
  comps : v'.comps = v.comps
  hists : Upto v.nhist v.hists v'.hists
  nhist : v'.nhist = v.nhist
  cur : v'.cur = v.cur
  pts : Upto v.npts v.pts v'.pts
  npts : v'.npts = v.npts
  out : v'.out = v.out

theorem agree_tour (hI : Flood.Inv E.P s cs F) (hn : s.nbr ≤ E.P.nd) (h : Sim E v s F T pix) (g : Agree E v v') :
    match tour E.P v with
    | .next x => ∃ x', tour E.P v' = .next x' ∧ Agree E x x'
    | .done _ => False
    | .ub => tour E.P v' = .ub := by
  have hd : v.dir v.cur + 1 = s.nbr := by rw [h.cur, h.nbr]
  have hseen : Seen E.P (E.P.nb v.cur (v.dir v.cur + 1)) :=
    .inr ⟨v.cur, by rw [h.cur]; exact hI.cur_px, _, by omega, by omega, rfl⟩
  obtain ⟨vis, dir, heap, lvl, comps, hists, nhist, cur, pts, npts, out⟩ := v'
  obtain ⟨g1, g2, g3, g4, g5, g6, g7, g8, g9, g10, g11⟩ := g
  dsimp only at g1 g2 g3 g4 g5 g6 g7 g8 g9 g10 g11
  subst g2 g3 g4 g5 g7 g8 g10 g11
  unfold tour
  simp only
  rw [g1 _ hseen]
  by_cases hv : v.vis (E.P.nb v.cur (v.dir v.cur + 1)) = false
  · simp only [hv, if_true]
    have hvis : ∀ i, Seen E.P i → update vis (E.P.nb v.cur (v.dir v.cur + 1)) true i =
        update v.vis (E.P.nb v.cur (v.dir v.cur + 1)) true i := by
      intro i hi
      by_cases e : i = E.P.nb v.cur (v.dir v.cur + 1)
      · subst e; simp
      · rw [Function.update_of_ne e, Function.update_of_ne e]; exact g1 i hi
    by_cases hlt : E.P.gray (E.P.nb v.cur (v.dir v.cur + 1)) < E.P.gray v.cur
    · simp only [hlt, if_true]
      by_cases hcap : v.comps.length < E.P.cap
      · simp only [hcap, if_true]
        exact ⟨_, rfl, ⟨hvis, rfl, rfl, rfl, rfl, g6, rfl, rfl, g9, rfl, rfl⟩⟩
      · simp only [hcap, if_false]
    · simp only [hlt, if_false]
      exact ⟨_, rfl, ⟨hvis, rfl, rfl, rfl, rfl, g6, rfl, rfl, g9, rfl, rfl⟩⟩
  · simp only [hv, if_false]
    exact ⟨_, rfl, ⟨g1, rfl, rfl, rfl, rfl, g6, rfl, rfl, g9, rfl, rfl⟩⟩

theorem agree_finish (hE : EnvOK E) (hI : Flood.Inv E.P s cs F) (h : Sim E v s F T pix) (g : Agree E v v') :
    match finish E v with
    | .next x => ∃ x', finish E v' = .next x' ∧ Agree E x x'
    | .done x => ∃ x', finish E v' = .done x' ∧ x'.out = x.out
    | .ub => finish E v' = .ub := by
  have hcs := h.cs_eq hI
  obtain ⟨c, rest, hcs', htop⟩ := hI.core.cs_top
  rw [hcs'] at hcs
  obtain ⟨tc, T0, hT, htc, hrest⟩ := List.map_eq_cons_iff.1 hcs.symm
  subst hT
  obtain ⟨vc, c0, lc⟩ := tc
  dsimp only at htc
  subst htc
  subst hcs'
  obtain ⟨vd, vt, hvd⟩ : ∃ vd vt, T0.map (·.1) ++ [initComp 256] = vd :: vt := by
    cases T0 with
    | nil => exact ⟨_, _, rfl⟩
    | cons d r => exact ⟨_, _, rfl⟩
  have hvcomps : v.comps = vc :: vd :: vt := by rw [h.comps]; simp [hvd]
  have hEc := h.each (vc, c0, lc) List.mem_cons_self
  have hcurB : s.cur ∉ below s.regs s.lab F c0.region := fun hc => hI.cur_F (mem_below.1 hc).1
  obtain ⟨c', pts1, hacc, hc'g, hc's, hc'h, hadd, -⟩ := hEc.sim.add hcurB (place E s.cur).1 (place E s.cur).2
  rw [← h.cur] at hacc
  have hacc' := accumulate_upto g.pts (place E v.cur).1 (place E v.cur).2 vc
  dsimp only at hacc
  rw [hacc] at hacc'
  obtain ⟨pts2, hacc2, hp2⟩ := hacc'
  have hvdh : ∀ i, vd.hist = some i → i < v.nhist := by
    intro i hi
    cases T0 with
    | nil =>
      obtain ⟨rfl, -⟩ : initComp 256 = vd ∧ [] = vt := by simpa using hvd
      simp [initComp] at hi
    | cons td T1 =>
      obtain ⟨rfl, -⟩ : td.1 = vd ∧ T1.map (·.1) ++ [initComp 256] = vt := by simpa using hvd
      exact ((h.each td (by simp)).sim.hlt i hi).1
  obtain ⟨vis, dir, heap, lvl, comps, hists, nhist, cur, pts, npts, out⟩ := v'
  obtain ⟨g1, g2, g3, g4, g5, g6, g7, g8, g9, g10, g11⟩ := g
  dsimp only at g1 g2 g3 g4 g5 g6 g7 g8 g9 g10 g11 hacc2
  subst g2 g3 g4 g5 g7 g8 g10 g11
  unfold finish
  simp only [hvcomps]
  by_cases hgap : E.gap < 32 ∧ v.npts < E.area
  · simp only [hgap, and_self, if_true, hacc, hacc2]
    cases hhp : v.heap v.lvl with
    | cons p ps => exact ⟨_, rfl, ⟨g1, rfl, rfl, rfl, rfl, g6, rfl, rfl, hp2, rfl, rfl⟩⟩
    | nil =>
      simp only
      cases hsc : scan v.heap (255 - E.P.gray v.cur) (E.P.gray v.cur + 1) with
      | none => exact ⟨_, rfl, rfl⟩
      | some l =>
        simp only
        obtain ⟨l1, l2, l3, l4⟩ := Flood.scan_some hsc
        have hl256 : l < 256 := by
          obtain ⟨j, hj⟩ := List.exists_mem_of_ne_nil _ l3
          rw [h.heap] at hj
          obtain ⟨j1, j2, -⟩ := hI.core.heap_ok l j hj
          have := hE.gray j j1; omega
        cases hhl : v.heap l with
        | nil => rfl
        | cons p ps =>
          simp only
          by_cases hld : l < vd.gray
          · simp only [hld, if_true]
            have hr := raise_upto hadd h.hi g6 hp2 l v.out
            revert hr
            cases raise E l c' v.hists v.nhist pts1 v.out with
            | none => intro hr; simp only at hr ⊢; rw [hr]
            | some k =>
              obtain ⟨k1, k2, k3⟩ := k
              rintro ⟨K', e, hK⟩
              simp only [e]
              exact ⟨_, rfl, ⟨g1, rfl, rfl, rfl, rfl, hK, rfl, rfl, hp2, rfl, rfl⟩⟩
          · simp only [hld, if_false]
            have hm := mergeComp_upto g6 hp2 c' vd (fun i hi => (hadd.hlt i hi).1) hvdh
            have hle : ∀ m, mergeComp c' vd v.hists v.nhist pts1 = some m → l ≤ m.1.gray := by
              intro m hm
              have hmg : m.1.gray = vd.gray := by
                unfold mergeComp at hm
                simp only at hm
                split at hm
                · split at hm
                  · injection hm with hm; rw [← hm]
                  · exact absurd hm (by simp)
                · injection hm with hm; rw [← hm]
              rw [hmg]
              cases T0 with
              | nil =>
                obtain ⟨rfl, -⟩ : initComp 256 = vd ∧ [] = vt := by simpa using hvd
                exact absurd hl256 hld
              | cons td T1 =>
                obtain ⟨rfl, -⟩ : td.1 = vd ∧ T1.map (·.1) ++ [initComp 256] = vt := by simpa using hvd
                have hvdg := (h.each td (by simp)).gray
                have hdm : td.2.1 ∈ c0 :: rest := by
                  rw [← hrest]; simp
                have hdr : td.2.1 ∈ rest := by rw [← hrest]; simp
                have hs := hI.core.cs_sorted
                rw [List.pairwise_cons] at hs
                have hlt0 := hs.1 _ hdr
                have h1 := hI.core.cs_wait td.2.1 hdr
                by_contra hne
                refine h1 ?_
                rw [← h.heap]
                refine l4 _ ?_ (by omega)
                rw [show E.P.gray v.cur = s.curGray by rw [h.cur]; exact hI.cur_gray]
                omega
            unfold mergeLoop
            by_cases hn : v.nhist < E.area
            · simp only [hn, if_true]
              revert hm hle
              cases mergeComp c' vd v.hists v.nhist pts1 with
              | none => intro hm _; simp only at hm; simp [hm]
              | some m =>
                obtain ⟨m1, m2, m3⟩ := m
                rintro ⟨K', p', e, hK, hp⟩ hle
                have hle := hle _ rfl
                dsimp only at hle
                simp only [e, Option.bind_some, hle, if_true]
                exact ⟨_, rfl, ⟨g1, rfl, rfl, rfl, rfl, hK, rfl, rfl, hp, rfl, rfl⟩⟩
            · simp only [hn, if_false]
  · simp only [hgap, if_false]

theorem agree_step (hE : EnvOK E) (hI : Flood.Inv E.P s cs F) (h : Sim E v s F T pix) (g : Agree E v v') :
    match step E v with
    | .next x => ∃ x', step E v' = .next x' ∧ Agree E x x'
    | .done x => ∃ x', step E v' = .done x' ∧ x'.out = x.out
    | .ub => step E v' = .ub := by
  have hd : v.dir v.cur < E.P.nd ↔ s.nbr ≤ E.P.nd := by rw [h.cur, h.nbr]; omega
  unfold step
  rw [g.dir, g.cur]
  by_cases hn : s.nbr ≤ E.P.nd
  · rw [if_pos (hd.2 hn), if_pos (hd.2 hn)]
    have := agree_tour hI hn h g
    revert this
    cases tour E.P v with
    | next x => exact fun h => h
    | done x => exact fun h => h.elim
    | ub => exact fun h => h
  · rw [if_neg fun h => hn (hd.1 h), if_neg fun h => hn (hd.1 h)]
    exact agree_finish hE hI h g

theorem agree_run (hE : EnvOK E) : ∀ (n : Nat) {v v' : St} {s : Flood.St} {cs : List Flood.Comp} {F : Finset Nat}
    {T : List Trip} {pix : Nat → Nat}, Flood.Inv E.P s cs F → Sim E v s F T pix → Agree E v v' →
    ∀ x, run E n v = .done x → ∃ x', run E n v' = .done x' ∧ x'.out = x.out
  | 0, v, v', s, cs, F, T, pix, _, _, _ => fun x hx => by simp [run] at hx
  | n + 1, v, v', s, cs, F, T, pix, hI, h, g => by
    intro x hx
    have h1 := sim_step hE hI h
    have h2 := agree_step hE hI h g
    unfold run at hx ⊢
    revert h1
    cases Flood.step E.P s with
    | next s' =>
      rintro ⟨v1, e1, cs', F', T', pix', i1, i2⟩
      rw [e1] at hx h2
      obtain ⟨v2, e2, g2⟩ := h2
      rw [e2]
      exact agree_run hE n i1 i2 g2 x hx
    | done s' =>
      rintro ⟨v1, e1, -⟩
      rw [e1] at hx h2
      obtain ⟨v2, e2, g2⟩ := h2
      rw [e2]
      injection hx with hx
      subst hx
      exact ⟨v2, rfl, g2⟩
    | ub =>
      intro e1
      rw [e1] at hx
      simp at hx

/-- Two passes that differ in what the buffers contained report the same regions. -/
theorem run_same (hE : EnvOK E) {vis vis' : Nat → Bool} (H H' : Nat → Hist) (pts pts' : Nat → LPoint)
    (hvis : ∀ i, Seen E.P i → (vis i = false ↔ i ∈ E.P.px)) (hvis' : ∀ i, Seen E.P i → (vis' i = false ↔ i ∈ E.P.px)) {n : Nat}
    {x : St} (hx : run E n (init E.P vis H pts) = .done x) :
    ∃ x', run E n (init E.P vis' H' pts') = .done x' ∧ x'.out = x.out := by
  have g : Agree E (init E.P vis H pts) (init E.P vis' H' pts') := by
    refine ⟨?_, rfl, rfl, rfl, rfl, ?_, rfl, rfl, ?_, rfl, rfl⟩
    · intro i hi
      by_cases e : i = E.P.start
      · subst e; simp [init]
      · simp only [init, Function.update_of_ne e]
        have h1 := hvis i hi
        have h2 := hvis' i hi
        rw [← h1] at h2
        cases h3 : vis i <;> cases h4 : vis' i <;> simp_all
    · intro k hk; exact absurd hk (Nat.not_lt_zero _)
    · intro k hk; exact absurd hk (Nat.not_lt_zero _)
  exact agree_run hE n (Flood.inv_init hE.ok) (sim_init H pts hvis hE.ok) g x hx

end Verif.OpenCv
