import Verif.Proof.ExtractJoin
import Mathlib.Data.List.Range
import Mathlib.Data.List.Flatten
import Mathlib.Tactic.Ring

/-!
# Reading the pixels back
-/

namespace Verif.Extract

namespace Plan
variable (P : Plan)

/-- The record, not among the first `t`, into which record `c` went. -/
def rep : Nat → Nat → Option Nat
  | 0 => fun c => some c
  | t + 1 => fun c => if rep t c = some t then P.up t else rep t c

/-- All own pixels. -/
def all (c : Nat) : List Pt := P.own 0 c ++ P.own 1 c ++ P.own 2 c ++ P.own 3 c

/-- The records among the first `t` that went into `j`. -/
def descs (t j : Nat) : List Nat := (List.range t).filter fun c => P.rep t c = some j

variable {P}

theorem rep_ge {t c : Nat} (h : t ≤ c) : P.rep t c = some c := by
  induction t with
  | zero => rfl
  | succ t ih =>
    simp only [rep, ih (by omega)]
    rw [if_neg]; simp; omega

theorem filter_or_perm {α} (l : List α) (p q : α → Bool) (h : ∀ a ∈ l, ¬ (p a = true ∧ q a = true)) :
    (l.filter fun a => p a || q a).Perm (l.filter p ++ l.filter q) := by
  induction l with
  | nil => simp
  | cons a l ih =>
    have ih' := ih fun b hb => h b (by simp [hb])
    have ha := h a (by simp)
    cases hp : p a <;> cases hq : q a
    · simp [List.filter_cons, hp, hq, ih']
    · rw [List.filter_cons_of_pos (by simp [hq]), List.filter_cons_of_neg (by simp [hp]),
        List.filter_cons_of_pos hq]
      exact (List.Perm.cons a ih').trans List.perm_middle.symm
    · rw [List.filter_cons_of_pos (by simp [hp]), List.filter_cons_of_pos hp,
        List.filter_cons_of_neg (by simp [hq])]
      exact List.Perm.cons a ih'
    · exact absurd ⟨hp, hq⟩ ha

theorem descs_succ (ok : P.Ok) {t j : Nat} (ht : t < P.N) (h : P.up t = some j) :
    (P.descs (t + 1) j).Perm (P.descs t j ++ (P.descs t t ++ [t])) := by
  have hj := (ok.up_lt t j ht h).1
  have e : P.descs (t + 1) j
      = ((List.range t).filter fun c => (decide (P.rep t c = some j)) || decide (P.rep t c = some t))
        ++ [t] := by
    simp only [descs, List.range_succ, List.filter_append]
    congr 1
    · apply List.filter_congr
      intro c _
      simp only [rep, h]
      by_cases hc : P.rep t c = some t
      · simp [hc]
      · simp [hc]
    · have : P.rep (t + 1) t = some j := by
        simp only [rep, rep_ge (Nat.le_refl t), if_true, h]
      simp [this]
  rw [e, ← List.append_assoc]
  refine List.Perm.append_right [t] ?_
  refine filter_or_perm _ _ _ ?_
  intro c _
  simp only [decide_eq_true_eq, not_and]
  intro h1 h2
  rw [h1] at h2
  simp at h2
  omega

theorem descs_succ_ne {t j : Nat} (hj : t < j) (h : P.up t ≠ some j) :
    P.descs (t + 1) j = P.descs t j := by
  simp only [descs, List.range_succ, List.filter_append]
  have h1 : P.rep (t + 1) t ≠ some j := by
    simp only [rep, rep_ge (Nat.le_refl t), if_true]; exact h
  have h2 : (List.filter (fun c => decide (P.rep (t + 1) c = some j)) [t]) = [] := by
    simp [h1]
  rw [h2, List.append_nil]
  apply List.filter_congr
  intro c _
  simp only [rep]
  by_cases hc : P.rep t c = some t
  · simp only [hc, if_true, h, decide_false]
    rw [eq_comm, decide_eq_false_iff_not]; simp; omega
  · simp [hc]

theorem accs_perm (ok : P.Ok) {t j : Nat} (ht : t ≤ P.N) (hj : t ≤ j) :
    (P.accs t j).Perm ((P.descs t j).flatMap P.all) := by
  induction t generalizing j with
  | zero => simp [accs, descs]
  | succ t ih =>
    by_cases h : P.up t = some j
    · rw [accs_succ h]
      refine List.Perm.trans ?_ (List.Perm.flatMap_right P.all (descs_succ ok (by omega) h)).symm
      rw [List.flatMap_append, List.flatMap_append]
      refine List.Perm.append (ih (by omega) (by omega)) ?_
      simp only [List.flatMap_cons, List.flatMap_nil, List.append_nil]
      have i1 := ih (by omega) (Nat.le_refl t)
      refine List.Perm.trans ?_ (List.Perm.append_right (P.all t) i1)
      simp only [full, all, List.append_assoc]
      rw [← List.append_assoc, ← List.append_assoc (P.accs t t)]
      exact List.Perm.append_right _ List.perm_append_comm
    · rw [accs_succ_ne h, descs_succ_ne (by omega) h]
      exact ih (by omega) (by omega)

theorem full_perm (ok : P.Ok) {i : Nat} (hi : i < P.N) :
    (P.full i).Perm ((P.descs i i).flatMap P.all ++ P.all i) := by
  refine List.Perm.trans ?_ (List.Perm.append_right (P.all i)
    (accs_perm ok (Nat.le_of_lt hi) (Nat.le_refl i)))
  simp only [full, all, List.append_assoc]
  rw [← List.append_assoc, ← List.append_assoc (P.accs i i)]
  exact List.Perm.append_right _ List.perm_append_comm

/-- Number of turns of the loop that reads record `i`. -/
def cost (P : Plan) (i : Nat) : Nat := 1 + (P.descs i i).length

theorem cost_kids (ok : P.Ok) {t j : Nat} (ht : t ≤ P.N) (hj : t ≤ j) :
    ((P.kids t j).map P.cost).sum = (P.descs t j).length := by
  induction t generalizing j with
  | zero => simp [kids, descs]
  | succ t ih =>
    by_cases h : P.up t = some j
    · rw [kids_succ h, List.map_append, List.sum_append, ih (by omega) (by omega),
        (descs_succ ok (by omega) h).length_eq]
      simp [cost]; omega
    · rw [kids_succ_ne h, descs_succ_ne (by omega) h]
      exact ih (by omega) (by omega)

theorem cost_le (i : Nat) : P.cost i ≤ i + 1 := by
  have := List.length_filter_le (fun c => decide (P.rep i c = some i)) (List.range i)
  rw [List.length_range] at this
  simp only [cost, descs]
  omega

end Plan

section
variable {P : Plan}

theorem readPoints_spec {size a : Int} {m : Mem} {l : List Pt} (h : Pts m a l) (h0 : 0 ≤ a)
    (h1 : a + l.length ≤ size) (n : Nat) (hn : n ≤ l.length) :
    readPoints size m a n = some (l.take n) := by
  induction n with
  | zero => simp [readPoints]
  | succ n ih =>
    obtain ⟨e1, e2⟩ := h n (by omega)
    simp only [readPoints, ih (by omega), Option.bind_some, rd_eq (size := size) (by omega) (by omega) e1,
      rd_eq (size := size) (by omega) (by omega) e2]
    rw [List.take_add_one, List.getElem?_eq_getElem (by omega)]
    rfl

theorem readSeg_spec (ok : P.Ok) {m : Mem} (done : Done P P.N m) {i k : Nat} (hi : i < P.N)
    (hk : k < 4) : readSeg P.size m (P.off i) k = some (P.seg P.N k i) := by
  obtain ⟨h1, h2⟩ := done.head i hi k hk
  have hp := done.pts i hi k hk
  have hc := (seg_fits ok (Nat.le_refl P.N)).pts i hi k hk
  have hs := Plan.sec_lt (P := P) hi hk
  have hh := Plan.head_size (P := P) hi
  have hd : P.rel P.N i = P.off i := by simp [Plan.rel, hi]
  rw [hd] at h1 h2
  simp only [readSeg, rd_eq (size := P.size) (by omega) (by omega) h1,
    rd_eq (size := P.size) (by omega) (by omega) h2, Option.bind_some]
  rw [show (P.off i : Int) + ((P.sec k i : Int) - P.off i) = P.sec k i by omega,
    show ((P.sec k i : Int) + ((P.seg P.N k i).length : Int) - P.off i
      - ((P.sec k i : Int) - P.off i)).toNat = (P.seg P.N k i).length by omega,
    readPoints_spec hp (by omega) (by omega) _ (Nat.le_refl _), List.take_length]

theorem pushKids_spec {m : Mem} {size p rel : Int} {l : List Int}
    (hl : ∀ t (h : t < l.length), m (2 * (p + 4) + ((t : Int) + 1)) = some l[t]) (h0 : 0 ≤ p)
    (h1 : 2 * (p + 4) + l.length < 2 * size) (st : List Int) (c : Nat) (hc : c ≤ l.length) :
    pushKids size m p rel c st = some (((l.take c).reverse.map (· + rel)) ++ st) := by
  induction c with
  | zero => simp [pushKids]
  | succ c ih =>
    simp only [pushKids, ih (by omega), Option.bind_some,
      rd_eq (size := size) (by omega) (by omega) (hl c (by omega))]
    rw [List.take_add_one, List.getElem?_eq_getElem (by omega), List.reverse_append, List.map_append]
    rfl

/-- What the visiting loop does with one record. -/
def Visits (X : Extracted) (i n : Nat) (D : List Pt) : Prop :=
  ∀ (base : Int) (f : Nat) (st : List Int) (acc : List Pt),
    visit X base (n + f) (((i : Int) - base) :: st) acc = visit X base f st (acc ++ D)

theorem visits_list {X : Extracted} (ks : List Nat)
    (h : ∀ i ∈ ks, ∃ n D, n ≤ P.cost i ∧ D.Perm (P.full i) ∧ Visits X i n D) :
    ∃ n D, n ≤ (ks.map P.cost).sum ∧ D.Perm (ks.flatMap P.full) ∧
      ∀ (base : Int) (f : Nat) (st : List Int) (acc : List Pt),
        visit X base (n + f) (ks.map (fun i : Nat => (i : Int) - base) ++ st) acc
          = visit X base f st (acc ++ D) := by
  induction ks with
  | nil => exact ⟨0, [], by simp, by simp, by intros; simp⟩
  | cons i ks ih =>
    obtain ⟨n1, D1, hn1, hD1, hv1⟩ := h i (by simp)
    obtain ⟨n2, D2, hn2, hD2, hv2⟩ := ih fun j hj => h j (by simp [hj])
    refine ⟨n1 + n2, D1 ++ D2, ?_, ?_, ?_⟩
    · simp; omega
    · rw [List.flatMap_cons]; exact hD1.append hD2
    · intro base f st acc
      rw [List.map_cons, List.cons_append, Nat.add_assoc, hv1, hv2, List.append_assoc]

theorem visits (ok : P.Ok) {X : Extracted} (hN : X.count = P.N) (hM : X.memSize = P.size)
    (mo : MsOk P X.ms) (done : Done P P.N X.mem) :
    ∀ i, i < P.N → ∃ n D, n ≤ P.cost i ∧ D.Perm (P.full i) ∧ Visits X i n D := by
  intro i
  induction i using Nat.strong_induction_on with
  | _ i ih =>
    intro hi
    have s0 := readSeg_spec ok done hi (k := 0) (by omega)
    have s1 := readSeg_spec ok done hi (k := 1) (by omega)
    have s2 := readSeg_spec ok done hi (k := 2) (by omega)
    have s3 := readSeg_spec ok done hi (k := 3) (by omega)
    have hacc := Plan.accs_up ok (Nat.le_of_lt hi) (Nat.le_refl P.N)
    have hkid := Plan.kids_up ok (Nat.le_of_lt hi) (Nat.le_refl P.N)
    by_cases hsh : P.sh i = true
    · refine ⟨1, P.full i, by simp [Plan.cost], List.Perm.refl _, ?_⟩
      intro base f st acc
      rw [Nat.add_comm 1 f]
      simp only [visit]
      rw [show base + ((i : Int) - base) = i by omega, if_pos (by omega), Int.toNat_natCast,
        mo.points i hi, hM, s0, Option.bind_some, s1, Option.bind_some, s2, Option.bind_some, s3,
        Option.bind_some, mo.mtype i hi, if_pos hsh]
      dsimp only
      congr 1
      simp [Plan.seg, Plan.full, hsh, hacc]
    · have hsh' : P.sh i = false := by simpa using hsh
      obtain ⟨hc, hl⟩ := done.table i hi hsh'
      obtain ⟨n, D, hn, hD, hv⟩ := visits_list (P := P) (X := X) (P.kids i i).reverse (by
        intro c hc
        rw [List.mem_reverse, Plan.mem_kids] at hc
        exact ih c hc.1 (by omega))
      rw [hkid] at hc hl
      refine ⟨n + 1, P.own 0 i ++ P.own 1 i ++ P.own 2 i ++ P.own 3 i ++ D, ?_, ?_, ?_⟩
      · rw [List.map_reverse, List.sum_reverse,
          Plan.cost_kids ok (Nat.le_of_lt hi) (Nat.le_refl i)] at hn
        simp only [Plan.cost]; omega
      · have h1 : D.Perm (P.accs i i) := by
          rw [Plan.accs_eq]
          exact hD.trans (List.Perm.flatMap_right _ (List.reverse_perm _))
        refine (List.Perm.append_left _ h1).trans ?_
        simp only [Plan.full, List.append_assoc]
        refine List.Perm.append_left _ ?_
        refine List.Perm.trans ?_ (List.perm_append_comm)
        simp
      · intro base f st acc
        have hh := Plan.head_size (P := P) hi
        have hck := Plan.ci_kids hsh'
        have hpk := pushKids_spec (m := X.mem) (size := P.size) (p := P.off i)
          (rel := (i : Int) - base) (l := (P.kids i i).map fun c : Nat => (c : Int) - i)
          (by
            intro t ht
            rw [List.length_map] at ht
            rw [hl t ht, List.getElem_map])
          (by omega) (by rw [List.length_map]; omega) st (P.kids i i).length (by simp)
        rw [show n + 1 + f = (n + f) + 1 by omega]
        simp only [visit]
        rw [show base + ((i : Int) - base) = i by omega, if_pos (by omega), Int.toNat_natCast,
          mo.points i hi, hM, s0, Option.bind_some, s1, Option.bind_some, s2, Option.bind_some, s3,
          Option.bind_some, mo.mtype i hi, if_neg hsh]
        dsimp only
        rw [rd_eq (size := P.size) (by omega) (by omega) hc, Option.bind_some, Int.toNat_natCast,
          hpk, Option.bind_some]
        have hst : (List.map (fun x => x + ((i : Int) - base))
            (List.take (P.kids i i).length ((P.kids i i).map fun c : Nat => (c : Int) - i)).reverse)
            = (P.kids i i).reverse.map (fun c : Nat => (c : Int) - base) := by
          rw [List.take_of_length_le (by simp), ← List.map_reverse, List.map_map]
          apply List.map_congr_left
          intro c _
          simp only [Function.comp_apply]
          ring
        rw [hst, hv]
        congr 1
        simp [Plan.seg, hsh]

/-- Reading record `i` yields exactly the points of the plan. -/
theorem points_spec (ok : P.Ok) {X : Extracted} (hN : X.count = P.N) (hM : X.memSize = P.size)
    (mo : MsOk P X.ms) (done : Done P P.N X.mem) {i : Nat} (hi : i < P.N) :
    ∃ D, points X i = some D ∧ D.Perm ((P.descs i i).flatMap P.all ++ P.all i) := by
  obtain ⟨n, D, hn, hD, hv⟩ := visits ok hN hM mo done i hi
  refine ⟨D, ?_, hD.trans (Plan.full_perm ok hi)⟩
  have hc := Plan.cost_le (P := P) i
  have := hv i (P.N - n) [] []
  rw [show n + (P.N - n) = P.N by omega, sub_self, List.nil_append] at this
  simp only [points, hN, this]
  cases P.N - n <;> rfl

end

end Verif.Extract
