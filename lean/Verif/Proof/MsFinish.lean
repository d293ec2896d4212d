import Verif.Proof.MsLayout

/-!
# The ms detector: writing the pixels, collecting, reading back
-/

namespace Verif.Ms

open Function (update)
open Verif.Extract

variable {P : Plan} {A : Areas}

/-! ### Writing -/

/-- The state when the pixels `pre` are written. -/
structure FillInv (A : Areas) (P : Plan) (E : Env) (code : Nat → Int) (ms0 : Nat → RecM) (pre : List (Nat × Nat))
    (s : FillM) : Prop where
  cont : ∀ j, j < P.N → Cont A P s.mem j (linked E 0 code j pre) []
  node : ∀ j, s.ms j = { ms0 j with points := (s.ms j).points, rect := (s.ms j).rect }
  points : ∀ j, j < P.N → (s.ms j).points = (A.off j : Int) + A.d j + (linked E 0 code j pre).length
  rect : ∀ j, j < P.N → Sides (s.ms j).rect (linked E 0 code j pre)

theorem fillM_loop (hA : A.Fit P) {E : Env} {heap : Reg → Option Int} {label : Nat → Nat} {code : Nat → Int}
    {ms0 : Nat → RecM} (hl : (E.pi 0).left = 0) (ht : (E.pi 0).top = 0)
    (harr : ∀ j, j < P.N → (ms0 j).arr = A.arr j)
    (hlab : ∀ rc ∈ scan (E.pi 0).width (E.pi 0).height,
      label (Flood.idx (E.pi 0).width rc.2 rc.1) < E.nreg 0 ∧
      heap (0, label (Flood.idx (E.pi 0).width rc.2 rc.1)) = some (code (Flood.idx (E.pi 0).width rc.2 rc.1)))
    (hcode : ∀ rc ∈ scan (E.pi 0).width (E.pi 0).height,
      code (Flood.idx (E.pi 0).width rc.2 rc.1) = -1 ∨
      ∃ j, j < P.N ∧ code (Flood.idx (E.pi 0).width rc.2 rc.1) = ((j : Nat) : Int))
    (hown : ∀ j, j < P.N → P.own 0 j = linked E 0 code j (scan (E.pi 0).width (E.pi 0).height)) :
    ∀ (l pre : List (Nat × Nat)) (s : FillM), scan (E.pi 0).width (E.pi 0).height = pre ++ l →
      FillInv A P E code ms0 pre s →
      ∃ s', l.foldlM (fillM E P.N A.asz heap label) s = some s' ∧ FillInv A P E code ms0 (pre ++ l) s' := by
  intro l
  induction l with
  | nil =>
    intro pre s _ inv
    rw [List.append_nil]
    exact ⟨s, rfl, inv⟩
  | cons rc l ih =>
    intro pre s hscan inv
    have hmem : rc ∈ scan (E.pi 0).width (E.pi 0).height := by rw [hscan]; simp
    have hsplit : pre ++ rc :: l = (pre ++ [rc]) ++ l := by simp
    obtain ⟨hlt, hheap⟩ := hlab rc hmem
    have hpt : ptOf E 0 rc = ((rc.2 : Int), (rc.1 : Int)) := by simp [ptOf, hl, ht]
    rcases hcode rc hmem with hc | ⟨j, hj, hc⟩
    · have hlk : ∀ i : Nat, linked E 0 code i (pre ++ [rc]) = linked E 0 code i pre := by
        intro i
        rw [linked_append]
        simp only [linked, List.filter_cons, hc, List.filter_nil]
        rw [if_neg]
        · simp
        · simp only [decide_eq_true_eq]; omega
      obtain ⟨s', e', inv'⟩ := ih (pre ++ [rc]) s (by rw [hscan, hsplit])
        ⟨fun i hi => by rw [hlk]; exact inv.cont i hi, inv.node, fun i hi => by rw [hlk]; exact inv.points i hi,
          fun i hi => by rw [hlk]; exact inv.rect i hi⟩
      refine ⟨s', ?_, by rw [hsplit]; exact inv'⟩
      rw [List.foldlM_cons]
      simp only [fillM]
      rw [if_pos hlt, hheap]
      dsimp only
      rw [if_pos hc]
      exact e'
    · have hlkj : linked E 0 code j (pre ++ [rc]) = linked E 0 code j pre ++ [((rc.2 : Int), (rc.1 : Int))] := by
        rw [linked_append]
        congr 1
        simp only [linked, List.filter_cons, hc, List.filter_nil]
        simp [hpt]
      have hlk : ∀ i : Nat, i ≠ j → linked E 0 code i (pre ++ [rc]) = linked E 0 code i pre := by
        intro i hi
        rw [linked_append]
        simp only [linked, List.filter_cons, hc, List.filter_nil]
        rw [if_neg]
        · simp
        · simp only [decide_eq_true_eq]; omega
      have hlen : (linked E 0 code j pre).length < A.room P j := by
        have h1 : (linked E 0 code j pre).length + 1 ≤ (P.own 0 j).length := by
          rw [hown j hj, hscan, hsplit, linked_append, hlkj]
          simp only [List.length_append, List.length_singleton]
          omega
        have h2 : (P.own 0 j).length ≤ A.room P j := by
          unfold Areas.room
          split
          · exact le_refl _
          · rw [hA.full_eq, List.length_append]; omega
        omega
      obtain ⟨m1, m2, w1, w2, hcont⟩ := cont_point hA hj inv.cont ((rc.2 : Int), (rc.1 : Int)) hlen
      have hpts := inv.points j hj
      have ha : (s.ms j).arr = A.arr j := by rw [inv.node]; exact harr j hj
      obtain ⟨s', e', inv'⟩ := ih (pre ++ [rc])
        { ms := update s.ms j { s.ms j with points := (s.ms j).points + 1, rect := growM (s.ms j).rect rc.2 rc.1 }
          mem := update s.mem (A.arr j) m2 } (by rw [hscan, hsplit]) (by
          refine ⟨?_, ?_, ?_, ?_⟩
          · intro i hi
            have := hcont i hi
            by_cases e : i = j
            · subst e
              rw [if_pos rfl] at this
              rw [hlkj]; exact this
            · rw [if_neg e] at this
              rw [hlk i e]; exact this
          · intro i
            dsimp only
            by_cases e : i = j
            · subst e; rw [Function.update_self]; rw [inv.node i]
            · rw [Function.update_of_ne e]; exact inv.node i
          · intro i hi
            dsimp only
            by_cases e : i = j
            · subst e
              rw [Function.update_self, hlkj]
              dsimp only
              rw [hpts, List.length_append, List.length_singleton]
              push_cast; omega
            · rw [Function.update_of_ne e, hlk i e]; exact inv.points i hi
          · intro i hi
            dsimp only
            by_cases e : i = j
            · subst e
              rw [Function.update_self, hlkj]
              exact (inv.rect i hi).grow (by omega)
            · rw [Function.update_of_ne e, hlk i e]; exact inv.rect i hi)
      refine ⟨s', ?_, by rw [hsplit]; exact inv'⟩
      rw [List.foldlM_cons]
      simp only [fillM]
      rw [if_pos hlt, hheap]
      dsimp only
      rw [if_neg (by omega), if_pos (by omega), hc, Int.toNat_natCast, ha, hpts, w1, Option.bind_some, w2, Option.bind_some]
      rw [hpts] at e'
      rw [← ha] at e' ⊢
      exact e'

/-! ### The loop 820–830 -/

theorem foldl_zipIdx {σ : Type} (f : σ → Reg × Nat → σ) (arr : List Reg) (I : Nat → σ → Prop)
    (step : ∀ t (h : t < arr.length) s, I t s → I (t + 1) (f s (arr[t], t))) (s : σ) (h0 : I 0 s) :
    I arr.length (arr.zipIdx.foldl f s) := by
  have gen : ∀ (n t : Nat) (s : σ), t + n = arr.length → I t s → I arr.length (((arr.drop t).zipIdx t).foldl f s) := by
    intro n
    induction n with
    | zero =>
      intro t s h inv
      obtain rfl : t = arr.length := by omega
      rw [List.drop_length]
      exact inv
    | succ n ih =>
      intro t s h inv
      have ht : t < arr.length := by omega
      rw [List.drop_eq_getElem_cons ht, List.zipIdx_cons, List.foldl_cons]
      exact ih (t + 1) _ (by omega) (step t ht s inv)
  have := gen arr.length 0 s (by omega) h0
  simpa using this

theorem fixM_loop {X : XForest} {arr : List Reg} (ms : Nat → RecM) :
    ∀ j (h : j < arr.length), arr.zipIdx.foldl (fixM X) ms j =
      { ms j with
        rect := ⟨(ms j).rect.left, (ms j).rect.top, (ms j).rect.width - (ms j).rect.left + 1,
          (ms j).rect.height - (ms j).rect.top + 1⟩
        points := if (ms j).mtype = .recursive then (ms j).points - (1 + ((ms j).size : Int) - (X arr[j]).pix)
          else (ms j).points } := by
  have := foldl_zipIdx (fixM X) arr (fun t ms' => (∀ j (h : j < arr.length), j < t → ms' j =
      { ms j with
        rect := ⟨(ms j).rect.left, (ms j).rect.top, (ms j).rect.width - (ms j).rect.left + 1,
          (ms j).rect.height - (ms j).rect.top + 1⟩
        points := if (ms j).mtype = .recursive then (ms j).points - (1 + ((ms j).size : Int) - (X arr[j]).pix)
          else (ms j).points }) ∧ ∀ j, t ≤ j → ms' j = ms j)
    (by
      rintro t ht s ⟨h1, h2⟩
      refine ⟨fun j h hj => ?_, fun j hj => ?_⟩
      · by_cases e : j = t
        · subst e
          simp only [fixM, Function.update_self, h2 j (Nat.le_refl _)]
        · simp only [fixM]
          rw [Function.update_of_ne e]
          exact h1 j h (by omega)
      · simp only [fixM]
        rw [Function.update_of_ne (by omega)]
        exact h2 j (by omega))
    ms ⟨fun j _ hj => by omega, fun _ _ => rfl⟩
  exact fun j h => this.1 j h h

/-! ### Collecting -/

/-- The points of record `j` when `t` records are done. -/
def Areas.cur (A : Areas) (P : Plan) (t j : Nat) : List Pt :=
  P.own 0 j ++ if A.mt j = .recursive then [] else P.accs t j

/-- `m_points` of record `j` when `t` records are done. -/
def Areas.pos (A : Areas) (P : Plan) (t j : Nat) : Int :=
  if A.mt j = .recursive ∨ j < t then A.off j else (A.off j : Int) + (P.own 0 j).length + (P.accs t j).length

/-- The state when `t` records are done. -/
structure JoinInv (A : Areas) (P : Plan) (ms0 : Nat → RecM) (t : Nat) (s : FillM) : Prop where
  cont : ∀ j, j < P.N → Cont A P s.mem j (A.cur P t j) (P.kids t j)
  node : ∀ j, s.ms j = { ms0 j with points := (s.ms j).points, rect := (s.ms j).rect }
  points : ∀ j, j < P.N → (s.ms j).points = A.pos P t j
  rect : ∀ j, j < P.N → RBox True (s.ms j).rect (fun p => p ∈ P.own 0 j ∨ p ∈ P.accs t j)

theorem joinM_loop (hA : A.Fit P) {X : XForest} {arr : List Reg} (hN : arr.length = P.N) {ms0 : Nat → RecM}
    (harr : ∀ j, j < P.N → (ms0 j).arr = A.arr j ∧ (ms0 j).mtype = A.mt j ∧ (ms0 j).size = (P.full j).length)
    (hup : ∀ j (h : j < arr.length), parentM X arr[j] = P.up j) {s0 : FillM} (h0 : JoinInv A P ms0 0 s0) :
    ∃ s, arr.zipIdx.foldlM (joinM P.N A.asz X) s0 = some s ∧ JoinInv A P ms0 P.N s := by
  rw [← hN]
  apply foldlM_zipIdx (I := JoinInv A P ms0) _ _ _ _ h0
  intro t ht s inv
  have htN : t < P.N := by omega
  rw [hN]
  have hmt : ∀ j, j < P.N → (s.ms j).mtype = A.mt j := fun j hj => by rw [inv.node]; exact (harr j hj).2.1
  have hsz : ∀ j, j < P.N → (s.ms j).size = (P.full j).length := fun j hj => by rw [inv.node]; exact (harr j hj).2.2
  have hag : ∀ j, j < P.N → (s.ms j).arr = A.arr j := fun j hj => by rw [inv.node]; exact (harr j hj).1
  have hplain : ((s.ms t).mtype = .share ∨ (s.ms t).mtype = .self) ↔ A.mt t ≠ .recursive := by
    rw [hmt t htN]
    cases A.mt t <;> simp
  have hfull := hA.full_eq
  -- the position of the current record afterwards
  have hback : (if (s.ms t).mtype = .share ∨ (s.ms t).mtype = .self then (s.ms t).points - ((s.ms t).size : Int)
      else (s.ms t).points) = A.off t := by
    rw [inv.points t htN, hsz t htN, hfull]
    by_cases h : A.mt t = .recursive
    · rw [if_neg (fun e => hplain.1 e h)]; simp [Areas.pos, h]
    · rw [if_pos (hplain.2 h)]
      simp only [Areas.pos, h, Nat.lt_irrefl, or_self, if_false, List.length_append]
      push_cast; omega
  have hpos : ∀ j, j < P.N → j ≠ t → P.up t ≠ some j → A.pos P (t + 1) j = A.pos P t j := by
    intro j _ hj hu
    simp only [Areas.pos, Plan.accs_succ_ne hu]
    by_cases h : A.mt j = .recursive ∨ j < t
    · rw [if_pos h, if_pos (h.imp_right fun h => by omega)]
    · rw [if_neg h, if_neg fun h' => h (h'.imp_right fun h' => by clear hback; omega)]
  have hpost : A.pos P (t + 1) t = A.off t := by
    simp [Areas.pos]
  cases hu : P.up t with
  | none =>
    refine ⟨{ s with ms := update s.ms t { s.ms t with points := A.off t } }, ?_, ?_⟩
    · simp only [joinM, hup t ht, hu, hback]
    · have hk : ∀ j, P.kids (t + 1) j = P.kids t j := fun j => Plan.kids_succ_ne (by rw [hu]; simp)
      have ha : ∀ j, P.accs (t + 1) j = P.accs t j := fun j => Plan.accs_succ_ne (by rw [hu]; simp)
      have hc : ∀ j, A.cur P (t + 1) j = A.cur P t j := fun j => by simp only [Areas.cur, ha]
      refine ⟨fun j hj => by rw [hk, hc]; exact inv.cont j hj, fun j => ?_, fun j hj => ?_, fun j hj => ?_⟩
      · dsimp only
        by_cases e : j = t
        · subst e; rw [Function.update_self]; rw [inv.node j]
        · rw [Function.update_of_ne e]; exact inv.node j
      · dsimp only
        by_cases e : j = t
        · subst e; rw [Function.update_self, hpost]
        · rw [Function.update_of_ne e, hpos j hj e (by rw [hu]; simp)]; exact inv.points j hj
      · dsimp only
        rw [ha]
        by_cases e : j = t
        · subst e; rw [Function.update_self]; exact inv.rect j hj
        · rw [Function.update_of_ne e]; exact inv.rect j hj
  | some p =>
    obtain ⟨htp, hp⟩ := hA.ok.up_lt t p htN hu
    have hne : t ≠ p := by omega
    have hak : ∀ j, j ≠ p → P.accs (t + 1) j = P.accs t j ∧ P.kids (t + 1) j = P.kids t j := fun j hj =>
      ⟨Plan.accs_succ_ne (by rw [hu]; simpa using hj.symm), Plan.kids_succ_ne (by rw [hu]; simpa using hj.symm)⟩
    have hap := Plan.accs_succ hu
    have hkp := Plan.kids_succ hu
    have hpp : ¬ p < t + 1 := by omega
    -- the rectangle of the parent
    have hrect : RBox True ((s.ms p).rect.append (s.ms t).rect) (fun q => q ∈ P.own 0 p ∨ q ∈ P.accs (t + 1) p) := by
      refine (append_rbox (inv.rect p hp) (inv.rect t htN)).congr fun q => ?_
      rw [hap, List.mem_append, hfull, List.mem_append, or_assoc]
    by_cases hrp : A.mt p = .recursive
    · -- the child is entered into the table
      have hroom : (P.kids t p).length + 1 ≤ (P.kids p p).length := by
        have := Plan.kids_mono (P := P) (show t + 1 ≤ p by omega) p
        rw [hkp, List.length_append] at this
        simpa using this
      obtain ⟨m', e', hcont⟩ := cont_child (i := t) hA hp inv.cont hrp hroom
      have hns : ∀ j, A.mt j ≠ .self := by
        rcases hA.selfs with h | h
        · rw [h p] at hrp; cases hrp
        · exact h
      refine ⟨{ ms := update (update s.ms p { s.ms p with rect := (s.ms p).rect.append (s.ms t).rect }) t
                  { s.ms t with points := A.off t }
                mem := update s.mem (A.arr p) m' }, ?_, ?_⟩
      · have hpp' : (s.ms p).points = A.off p := by rw [inv.points p hp]; simp [Areas.pos, hrp]
        simp only [joinM, hup t ht, hu]
        rw [if_pos hp]
        simp only [Function.update_of_ne hne, Function.update_self, Function.update_of_ne hne.symm, hback, hmt p hp]
        rw [if_neg (by
          rw [hrp, hmt t htN]
          rintro ⟨_, h | h⟩
          · cases h
          · exact hns t h), hag p hp, hpp', e', Option.bind_some]
      · refine ⟨fun j hj => ?_, fun j => ?_, fun j hj => ?_, fun j hj => ?_⟩
        · have := hcont j hj
          by_cases e : j = p
          · subst e
            rw [if_pos rfl] at this
            rw [hkp]
            have hc : A.cur P (t + 1) j = A.cur P t j := by simp only [Areas.cur, hrp, if_true]
            rw [hc]; exact this
          · rw [if_neg e] at this
            have hc : A.cur P (t + 1) j = A.cur P t j := by simp only [Areas.cur, (hak j e).1]
            rw [hc, (hak j e).2]; exact this
        · dsimp only
          by_cases e : j = t
          · subst e; rw [Function.update_self]; rw [inv.node j]
          · rw [Function.update_of_ne e]
            by_cases e' : j = p
            · subst e'; rw [Function.update_self]; rw [inv.node j]
            · rw [Function.update_of_ne e']; exact inv.node j
        · dsimp only
          by_cases e : j = t
          · subst e; rw [Function.update_self, hpost]
          · rw [Function.update_of_ne e]
            by_cases e' : j = p
            · subst e'
              rw [Function.update_self]
              show (s.ms j).points = _
              rw [inv.points j hj]; simp [Areas.pos, hrp]
            · rw [Function.update_of_ne e', hpos j hj e (by rw [hu]; simpa using (Ne.symm e'))]; exact inv.points j hj
        · dsimp only
          by_cases e : j = t
          · subst e; rw [Function.update_self, (hak j hne).1]; exact inv.rect j hj
          · rw [Function.update_of_ne e]
            by_cases e' : j = p
            · subst e'; rw [Function.update_self]; exact hrect
            · rw [Function.update_of_ne e', (hak j e').1]; exact inv.rect j hj
    · -- the points are copied
      have hrt := hA.up t p htN hu hrp
      have hct : A.cur P t t = P.full t := by simp only [Areas.cur, hrt, if_false, hfull]
      have hcp : A.cur P t p = P.own 0 p ++ P.accs t p := by simp only [Areas.cur, hrp, if_false]
      have hroom : (A.cur P t p).length + (A.cur P t t).length ≤ A.room P p := by
        have := Plan.accs_mono (P := P) (show t + 1 ≤ p by omega) p
        rw [hap, List.length_append] at this
        rw [hct, hcp]
        simp only [Areas.room, hrp, if_false, List.length_append]
        rw [hfull p, List.length_append]
        omega
      obtain ⟨hov, m', e', hcont⟩ := cont_copy hA htN hp hne inv.cont hrt hrp hroom
      have hpp' : (s.ms p).points = (A.off p : Int) + (A.cur P t p).length := by
        rw [inv.points p hp, hcp, List.length_append]
        simp only [Areas.pos, hrp, show ¬ p < t by omega, or_self, if_false]
        push_cast; omega
      refine ⟨{ ms := update (update (update s.ms p { s.ms p with rect := (s.ms p).rect.append (s.ms t).rect }) t
                  { s.ms t with points := A.off t }) p
                  { s.ms p with rect := (s.ms p).rect.append (s.ms t).rect
                                points := (s.ms p).points + ((s.ms t).size : Int) }
                mem := m' }, ?_, ?_⟩
      · simp only [joinM, hup t ht, hu]
        rw [if_pos hp]
        simp only [Function.update_of_ne hne, Function.update_self, Function.update_of_ne hne.symm, hback, hmt p hp]
        rw [if_pos (show ((s.ms t).mtype = .share ∨ (s.ms t).mtype = .self) ∧ (A.mt p = .share ∨ (s.ms t).mtype = .self) by
          refine ⟨hplain.2 hrt, ?_⟩
          rw [hmt t htN]
          rcases hA.selfs with h | h
          · exact .inr (h t)
          · left
            have := h p
            revert this hrp
            cases A.mt p <;> simp), hag p hp, hag t htN, hpp', hsz t htN, ← hct]
        rw [if_pos (by intro e; have := hov e; omega), e', Option.bind_some]
      · have hac : ∀ j, j ≠ p → A.cur P (t + 1) j = A.cur P t j := fun j hj => by simp only [Areas.cur, (hak j hj).1]
        refine ⟨fun j hj => ?_, fun j => ?_, fun j hj => ?_, fun j hj => ?_⟩
        · have := hcont j hj
          by_cases e : j = p
          · subst e
            rw [if_pos rfl] at this
            have hc : A.cur P (t + 1) j = A.cur P t j ++ A.cur P t t := by
              rw [hct, hcp]
              simp only [Areas.cur, hrp, if_false, hap, List.append_assoc]
            rw [hc]
            exact ⟨this.pts, this.fits, fun h => absurd h hrp, fun h => absurd h hrp, fun h => absurd h hrp,
              fun h => absurd h hrp⟩
          · rw [if_neg e] at this
            rw [hac j e, (hak j e).2]; exact this
        · dsimp only
          by_cases e' : j = p
          · subst e'; rw [Function.update_self]; rw [inv.node j]
          · rw [Function.update_of_ne e']
            by_cases e : j = t
            · subst e; rw [Function.update_self]; rw [inv.node j]
            · rw [Function.update_of_ne e, Function.update_of_ne e']; exact inv.node j
        · dsimp only
          by_cases e' : j = p
          · subst e'
            rw [Function.update_self]
            dsimp only
            rw [hpp', hcp, hsz t htN, List.length_append]
            simp only [Areas.pos, hrp, hpp, or_self, if_false, hap, List.length_append]
            push_cast; omega
          · rw [Function.update_of_ne e']
            by_cases e : j = t
            · subst e; rw [Function.update_self, hpost]
            · rw [Function.update_of_ne e, Function.update_of_ne e', hpos j hj e (by rw [hu]; simpa using (Ne.symm e'))]
              exact inv.points j hj
        · dsimp only
          by_cases e' : j = p
          · subst e'; rw [Function.update_self]; exact hrect
          · rw [Function.update_of_ne e', (hak j e').1]
            by_cases e : j = t
            · subst e; rw [Function.update_self]; exact inv.rect j hj
            · rw [Function.update_of_ne e, Function.update_of_ne e']; exact inv.rect j hj

/-! ### Reading back -/

/-- What the caller gets. -/
structure DoneM (A : Areas) (P : Plan) (X : XOutM) : Prop where
  count : X.count = P.N
  asz : X.asz = A.asz
  cont : ∀ j, j < P.N → Cont A P X.mem j (A.cur P j j) (P.kids j j)
  arr : ∀ j, j < P.N → (X.ms j).arr = A.arr j
  mtype : ∀ j, j < P.N → (X.ms j).mtype = A.mt j
  size : ∀ j, j < P.N → (X.ms j).size = (P.full j).length
  points : ∀ j, j < P.N → (X.ms j).points = A.off j
  rect : ∀ j, j < P.N → RBox True (X.ms j).rect (· ∈ P.full j)

theorem pushKidsM_spec {m : Mem} {size e rel : Int} {l : List Int}
    (hl : ∀ t (h : t < l.length), m (2 * e + t) = some l[t]) (h0 : 0 ≤ e)
    (h1 : 2 * e + l.length ≤ 2 * size) (st : List Int) (c : Nat) (hc : c ≤ l.length) :
    pushKidsM size m e rel c st = some (((l.take c).reverse.map (· + rel)) ++ st) := by
  induction c with
  | zero => simp [pushKidsM]
  | succ c ih =>
    simp only [pushKidsM, ih (by omega), Option.bind_some,
      rd_eq (size := size) (by omega) (by omega) (hl c (by omega))]
    rw [List.take_add_one, List.getElem?_eq_getElem (by omega), List.reverse_append, List.map_append]
    rfl

/-- What the visiting loop does with one record. -/
def VisitsM (X : XOutM) (i n : Nat) (D : List Pt) : Prop :=
  ∀ (base : Int) (f : Nat) (st : List Int) (acc : List Pt),
    visitM X base (n + f) (((i : Int) - base) :: st) acc = visitM X base f st (acc ++ D)

theorem visitsM_list {X : XOutM} (ks : List Nat)
    (h : ∀ i ∈ ks, ∃ n D, n ≤ P.cost i ∧ D.Perm (P.full i) ∧ VisitsM X i n D) :
    ∃ n D, n ≤ (ks.map P.cost).sum ∧ D.Perm (ks.flatMap P.full) ∧
      ∀ (base : Int) (f : Nat) (st : List Int) (acc : List Pt),
        visitM X base (n + f) (ks.map (fun i : Nat => (i : Int) - base) ++ st) acc
          = visitM X base f st (acc ++ D) := by
  induction ks with
  | nil => exact ⟨0, [], by simp, by simp, by intros; simp⟩
  | cons i ks ih =>
    obtain ⟨n1, D1, hn1, hD1, hv1⟩ := h i (by simp)
    obtain ⟨n2, D2, hn2, hD2, hv2⟩ := ih fun j hj => h j (by simp [hj])
    refine ⟨n1 + n2, D1 ++ D2, ?_, ?_, ?_⟩
    · simp; omega
    · rw [List.flatMap_cons]; exact hD1.append hD2
    · intro base f st acc
      rw [List.map_cons, List.cons_append, Nat.add_assoc, hv1, hv2, List.append_assoc]

/-- The points of a record without header. -/
theorem readPoints_plain (hA : A.Fit P) {X : XOutM} (D : DoneM A P X) {i : Nat} (hi : i < P.N)
    (hr : A.mt i ≠ .recursive) :
    readPoints (X.asz (X.ms i).arr) (X.mem (X.ms i).arr) (X.ms i).points (X.ms i).size = some (P.full i) := by
  have hc := D.cont i hi
  have hcur : A.cur P i i = P.full i := by simp only [Areas.cur, hr, if_false, hA.full_eq]
  have hp := hc.pts
  rw [hcur] at hp
  have hd : A.d i = 0 := by simp [Areas.d, hr]
  have hlen : A.len P i = (P.full i).length := by simp [Areas.len, hr]
  have hw := hA.within i hi
  rw [hd, Nat.cast_zero, add_zero] at hp
  rw [D.arr i hi, D.asz, D.points i hi, D.size i hi, readPoints_spec hp (by omega) (by omega) _ (Nat.le_refl _),
    List.take_length]

theorem visitsM (hA : A.Fit P) (hns : ∀ j, A.mt j ≠ .self) {X : XOutM} (D : DoneM A P X) :
    ∀ i, i < P.N → ∃ n L, n ≤ P.cost i ∧ L.Perm (P.full i) ∧ VisitsM X i n L := by
  intro i
  induction i using Nat.strong_induction_on with
  | _ i ih =>
    intro hi
    have hw := hA.within i hi
    have hN := D.count
    by_cases hr : A.mt i = .recursive
    · obtain ⟨n, L, hn, hL, hv⟩ := visitsM_list (P := P) (X := X) (P.kids i i).reverse (by
        intro c hc
        rw [List.mem_reverse, Plan.mem_kids] at hc
        exact ih c hc.1 (by omega))
      have hc := D.cont i hi
      have hd : A.d i = 1 := by simp [Areas.d, hr]
      have hcur : A.cur P i i = P.own 0 i := by simp [Areas.cur, hr]
      have hlen : A.len P i = 1 + (P.own 0 i).length + (1 + (P.kids i i).length) / 2 := by simp [Areas.len, hr]
      have hp := hc.pts
      rw [hcur, hd, Nat.cast_one] at hp
      refine ⟨n + 1, P.own 0 i ++ L, ?_, ?_, ?_⟩
      · rw [List.map_reverse, List.sum_reverse,
          Plan.cost_kids hA.ok (Nat.le_of_lt hi) (Nat.le_refl i)] at hn
        simp only [Plan.cost]; omega
      · have h1 : L.Perm (P.accs i i) := by
          rw [Plan.accs_eq]
          exact hL.trans (List.Perm.flatMap_right _ (List.reverse_perm _))
        rw [hA.full_eq]
        exact List.Perm.append_left _ h1
      · intro base f st acc
        have hpk := pushKidsM_spec (m := X.mem (A.arr i)) (size := A.asz (A.arr i))
          (e := (A.off i : Int) + 1 + (P.own 0 i).length)
          (rel := (i : Int) - base) (l := (P.kids i i).map fun c : Nat => (c : Int) - i)
          (by
            intro t ht
            rw [List.length_map] at ht
            rw [hc.ent hr t ht, List.getElem_map])
          (by omega) (by rw [List.length_map]; omega) st (P.kids i i).length (by simp)
        rw [show n + 1 + f = (n + f) + 1 by omega]
        simp only [visitM]
        rw [show base + ((i : Int) - base) = i by omega, if_pos (by omega), Int.toNat_natCast, D.mtype i hi,
          if_neg (by rw [hr]; simp), D.arr i hi, D.asz, D.points i hi,
          rd_eq (by omega) (by omega) (hc.own hr), Option.bind_some, Int.toNat_natCast,
          readPoints_spec (l := P.own 0 i) hp (by omega) (by omega) _ (Nat.le_refl _), Option.bind_some,
          List.take_length, rd_eq (by omega) (by omega) (hc.num hr), Option.bind_some, Int.toNat_natCast,
          hpk, Option.bind_some]
        have hst : (List.map (fun x => x + ((i : Int) - base))
            (List.take (P.kids i i).length ((P.kids i i).map fun c : Nat => (c : Int) - i)).reverse)
            = (P.kids i i).reverse.map (fun c : Nat => (c : Int) - base) := by
          rw [List.take_of_length_le (by simp), ← List.map_reverse, List.map_map]
          apply List.map_congr_left
          intro c _
          simp only [Function.comp_apply]
          ring
        rw [hst, hv, List.append_assoc]
    · refine ⟨1, P.full i, by simp [Plan.cost], List.Perm.refl _, ?_⟩
      intro base f st acc
      rw [Nat.add_comm 1 f]
      simp only [visitM]
      have hsh : A.mt i = .share := by
        have := hns i
        revert this hr
        cases A.mt i <;> simp
      rw [show base + ((i : Int) - base) = i by omega, if_pos (by omega), Int.toNat_natCast, D.mtype i hi, if_pos hsh,
        readPoints_plain hA D hi hr, Option.bind_some]

/-- Reading record `i` yields exactly the points of the plan. -/
theorem pointsM_spec (hA : A.Fit P) {X : XOutM} (D : DoneM A P X) {i : Nat} (hi : i < P.N) :
    ∃ L, pointsM X i = some L ∧ L.Perm (P.full i) := by
  by_cases hr : A.mt i = .recursive
  · have hns : ∀ j, A.mt j ≠ .self := by
      rcases hA.selfs with h | h
      · rw [h i] at hr; cases hr
      · exact h
    obtain ⟨n, L, hn, hL, hv⟩ := visitsM hA hns D i hi
    refine ⟨L, ?_, hL⟩
    have hc := Plan.cost_le (P := P) i
    have := hv i (P.N - n) [] []
    rw [show n + (P.N - n) = P.N by omega, sub_self, List.nil_append] at this
    simp only [pointsM, D.mtype i hi, hr, if_true, D.count, this]
    cases P.N - n <;> rfl
  · refine ⟨P.full i, ?_, List.Perm.refl _⟩
    simp only [pointsM, D.mtype i hi, hr, if_false]
    exact readPoints_plain hA D hi hr

/-! ### 777–870 -/

/-- What the preparing loops hand over. -/
structure Prepared (A : Areas) (P : Plan) (E : Env) (code : Nat → Int) (label : Nat → Nat) (arr : List Reg) (X : XForest)
    (heap : Reg → Option Int) (s : FillM) : Prop where
  N : arr.length = P.N
  left : (E.pi 0).left = 0
  top : (E.pi 0).top = 0
  lab : ∀ rc ∈ scan (E.pi 0).width (E.pi 0).height,
      label (Flood.idx (E.pi 0).width rc.2 rc.1) < E.nreg 0 ∧
      heap (0, label (Flood.idx (E.pi 0).width rc.2 rc.1)) = some (code (Flood.idx (E.pi 0).width rc.2 rc.1))
  codes : ∀ rc ∈ scan (E.pi 0).width (E.pi 0).height,
      code (Flood.idx (E.pi 0).width rc.2 rc.1) = -1 ∨
      ∃ j, j < P.N ∧ code (Flood.idx (E.pi 0).width rc.2 rc.1) = ((j : Nat) : Int)
  own : ∀ j, j < P.N → P.own 0 j = linked E 0 code j (scan (E.pi 0).width (E.pi 0).height)
  ne : ∀ j, j < P.N → P.own 0 j ≠ []
  up : ∀ j (h : j < arr.length), parentM X arr[j] = P.up j
  pix : ∀ j (h : j < arr.length), (X arr[j]).pix = (P.accs j j).length
  area : ∀ j, j < P.N → (s.ms j).arr = A.arr j
  mtype : ∀ j, j < P.N → (s.ms j).mtype = A.mt j
  size : ∀ j, j < P.N → (s.ms j).size = (P.full j).length
  points : ∀ j, j < P.N → (s.ms j).points = (A.off j : Int) + A.d j
  rect : ∀ j, j < P.N → (s.ms j).rect.left = -1
  cont : ∀ j, j < P.N → Cont A P s.mem j [] []

theorem finishM_spec (hA : A.Fit P) {E : Env} {code : Nat → Int} {label : Nat → Nat} {arr : List Reg} {X : XForest}
    {heap : Reg → Option Int} {s : FillM} (R : Prepared A P E code label arr X heap s) :
    ∃ Y, finishM E label arr A.asz X heap s = some Y ∧ DoneM A P Y ∧ ∀ j, j < P.N → (Y.ms j).gray = (s.ms j).gray := by
  have hN := R.N
  have hlk : ∀ j, linked E 0 code j [] = [] := fun j => rfl
  obtain ⟨s1, e1, i1⟩ := fillM_loop hA (ms0 := s.ms) R.left R.top R.area R.lab R.codes R.own
    (scan (E.pi 0).width (E.pi 0).height) [] s rfl
    ⟨fun j hj => by rw [hlk]; exact R.cont j hj, fun j => rfl, fun j hj => by rw [hlk, R.points j hj]; simp,
      fun j hj => by rw [hlk]; exact .inl ⟨rfl, R.rect j hj⟩⟩
  rw [List.nil_append] at i1
  have hfix := fixM_loop (X := X) (arr := arr) s1.ms
  have hnode1 : ∀ j, j < P.N → (s1.ms j).mtype = A.mt j ∧ (s1.ms j).size = (P.full j).length ∧ (s1.ms j).arr = A.arr j := by
    intro j hj
    rw [i1.node]
    exact ⟨R.mtype j hj, R.size j hj, R.area j hj⟩
  have hj0 : JoinInv A P (arr.zipIdx.foldl (fixM X) s1.ms) 0 ⟨arr.zipIdx.foldl (fixM X) s1.ms, s1.mem⟩ := by
    refine ⟨fun j hj => ?_, fun j => rfl, fun j hj => ?_, fun j hj => ?_⟩
    · have := i1.cont j hj
      rw [← R.own j hj] at this
      have hc : A.cur P 0 j = P.own 0 j := by simp [Areas.cur, Plan.accs]
      rw [hc]; exact this
    · dsimp only
      rw [hfix j (by omega)]
      dsimp only
      have hp := i1.points j hj
      rw [← R.own j hj] at hp
      rw [(hnode1 j hj).1, (hnode1 j hj).2.1, R.pix j (by omega), hp, hA.full_eq, List.length_append]
      by_cases h : A.mt j = .recursive
      · simp only [Areas.pos, Areas.d, h, if_true, true_or]
        push_cast; omega
      · simp only [Areas.pos, Areas.d, h, if_false, Nat.not_lt_zero, or_self, Plan.accs, List.length_nil]
        push_cast; omega
    · dsimp only
      rw [hfix j (by omega)]
      have hs := i1.rect j hj
      rw [← R.own j hj] at hs
      rcases hs with ⟨h, _⟩ | ⟨_, _, h⟩
      · exact absurd h (R.ne j hj)
      · unfold RBox
        dsimp only
        rw [show (s1.ms j).rect.left + ((s1.ms j).rect.width - (s1.ms j).rect.left + 1) - 1 = (s1.ms j).rect.width by omega,
          show (s1.ms j).rect.top + ((s1.ms j).rect.height - (s1.ms j).rect.top + 1) - 1 = (s1.ms j).rect.height by omega]
        exact h.congr fun p => by simp [Plan.accs]
  have hms0 : ∀ j, j < P.N → (arr.zipIdx.foldl (fixM X) s1.ms j).arr = A.arr j ∧
      (arr.zipIdx.foldl (fixM X) s1.ms j).mtype = A.mt j ∧
      (arr.zipIdx.foldl (fixM X) s1.ms j).size = (P.full j).length ∧
      (arr.zipIdx.foldl (fixM X) s1.ms j).gray = (s.ms j).gray := by
    intro j hj
    rw [hfix j (by omega)]
    have h1 := hnode1 j hj
    refine ⟨h1.2.2, h1.1, h1.2.1, ?_⟩
    show (s1.ms j).gray = _
    rw [i1.node]
  obtain ⟨s2, e2, i2⟩ := joinM_loop hA hN (fun j hj => ⟨(hms0 j hj).1, (hms0 j hj).2.1, (hms0 j hj).2.2.1⟩) R.up hj0
  refine ⟨⟨P.N, s2.ms, s2.mem, A.asz⟩, ?_, ?_, ?_⟩
  · unfold finishM
    rw [hN, e1, Option.bind_some]
    dsimp only
    rw [e2, Option.bind_some]
  · refine ⟨rfl, rfl, fun j hj => ?_, fun j hj => ?_, fun j hj => ?_, fun j hj => ?_, fun j hj => ?_, fun j hj => ?_⟩
    · have := i2.cont j hj
      have hc : A.cur P P.N j = A.cur P j j := by
        simp only [Areas.cur, Plan.accs_up hA.ok (Nat.le_of_lt hj) (Nat.le_refl _)]
      rwa [hc, Plan.kids_up hA.ok (Nat.le_of_lt hj) (Nat.le_refl _)] at this
    · show (s2.ms j).arr = _; rw [i2.node]; exact (hms0 j hj).1
    · show (s2.ms j).mtype = _; rw [i2.node]; exact (hms0 j hj).2.1
    · show (s2.ms j).size = _; rw [i2.node]; exact (hms0 j hj).2.2.1
    · show (s2.ms j).points = _; rw [i2.points j hj]; simp [Areas.pos, hj]
    · have := i2.rect j hj
      refine BBox.congr this fun p => ?_
      rw [hA.full_eq, List.mem_append, Plan.accs_up hA.ok (Nat.le_of_lt hj) (Nat.le_refl _)]
  · intro j hj
    show (s2.ms j).gray = _
    rw [i2.node]; exact (hms0 j hj).2.2.2

end Verif.Ms
