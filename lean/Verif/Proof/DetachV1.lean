import Verif.Proof.DisconnectV1

/-!
# Fast MSER V1: the lists of all regions while trees are joined

`LS` describes the point lists of all regions while `connect` is at work: `Xs` are the regions cut off from their
parents at the moment, `ds` the sizes that were cut off (each with the region the size was subtracted from).
-/

namespace Verif.V1

open Function (update)
open Relation (ReflTransGen)
open Verif.Spec (Linked)
open Verif.Connect (Forest chase Up UpO RealPar Str up_total)

variable {ι : Type} [DecidableEq ι]

/-- The points of `l` lie in `R`; each side of `R` is attained by a point of `l` or of `P`. -/
structure Cover (pts : Nat → Point) (l : List Nat) (P : Nat → Prop) (R : Rect) : Prop where
  inside : ∀ a ∈ l, R.left ≤ (pts a).x ∧ (pts a).x ≤ R.right ∧ R.top ≤ (pts a).y ∧ (pts a).y ≤ R.bottom
  left : ∃ a, (a ∈ l ∨ P a) ∧ (pts a).x = R.left
  right : ∃ a, (a ∈ l ∨ P a) ∧ (pts a).x = R.right
  top : ∃ a, (a ∈ l ∨ P a) ∧ (pts a).y = R.top
  bottom : ∃ a, (a ∈ l ∨ P a) ∧ (pts a).y = R.bottom

theorem Cover.mono {pts pts' : Nat → Point} {l l' : List Nat} {P P' : Nat → Prop} {R : Rect} (h : Cover pts l P R)
    (hx : ∀ a, (pts' a).x = (pts a).x ∧ (pts' a).y = (pts a).y) (hl : ∀ a ∈ l', a ∈ l)
    (hP : ∀ a, a ∈ l ∨ P a → a ∈ l' ∨ P' a) : Cover pts' l' P' R where
  inside := fun a ha => by rw [(hx a).1, (hx a).2]; exact h.inside a (hl a ha)
  left := by obtain ⟨a, ha, e⟩ := h.left; exact ⟨a, hP a ha, by rw [(hx a).1, e]⟩
  right := by obtain ⟨a, ha, e⟩ := h.right; exact ⟨a, hP a ha, by rw [(hx a).1, e]⟩
  top := by obtain ⟨a, ha, e⟩ := h.top; exact ⟨a, hP a ha, by rw [(hx a).2, e]⟩
  bottom := by obtain ⟨a, ha, e⟩ := h.bottom; exact ⟨a, hP a ha, by rw [(hx a).2, e]⟩

theorem Cover.tight {pts : Nat → Point} {l : List Nat} {P : Nat → Prop} {R : Rect} (h : Cover pts l P R)
    (hP : ∀ a, ¬ P a) : Tight pts l R where
  inside := h.inside
  left := by obtain ⟨a, ha, e⟩ := h.left; exact ⟨a, ha.resolve_right (hP a), e⟩
  right := by obtain ⟨a, ha, e⟩ := h.right; exact ⟨a, ha.resolve_right (hP a), e⟩
  top := by obtain ⟨a, ha, e⟩ := h.top; exact ⟨a, ha.resolve_right (hP a), e⟩
  bottom := by obtain ⟨a, ha, e⟩ := h.bottom; exact ⟨a, ha.resolve_right (hP a), e⟩

theorem Tight.cover {pts : Nat → Point} {l : List Nat} {P : Nat → Prop} {R : Rect} (h : Tight pts l R) :
    Cover pts l P R where
  inside := h.inside
  left := by obtain ⟨a, ha, e⟩ := h.left; exact ⟨a, .inl ha, e⟩
  right := by obtain ⟨a, ha, e⟩ := h.right; exact ⟨a, .inl ha, e⟩
  top := by obtain ⟨a, ha, e⟩ := h.top; exact ⟨a, .inl ha, e⟩
  bottom := by obtain ⟨a, ha, e⟩ := h.bottom; exact ⟨a, .inl ha, e⟩

/-- `R` with the rectangle `S` of `k`, where `R` is covered by `l` and `k`. -/
theorem Cover.join {pts : Nat → Point} {l k : List Nat} {R S : Rect} (h : Cover pts l (· ∈ k) R) (h' : Tight pts k S) :
    Tight pts (l ++ k) (R.join S) := by
  obtain ⟨a1, h1, e1⟩ := h.left
  obtain ⟨a2, h2, e2⟩ := h.right
  obtain ⟨a3, h3, e3⟩ := h.top
  obtain ⟨a4, h4, e4⟩ := h.bottom
  obtain ⟨b1, k1, f1⟩ := h'.left
  obtain ⟨b2, k2, f2⟩ := h'.right
  obtain ⟨b3, k3, f3⟩ := h'.top
  obtain ⟨b4, k4, f4⟩ := h'.bottom
  constructor
  · intro a ha
    rcases List.mem_append.1 ha with ha | ha
    · have := h.inside a ha
      simp only [Rect.join]; refine ⟨?_, ?_, ?_, ?_⟩ <;> split <;> omega
    · have := h'.inside a ha
      simp only [Rect.join]; refine ⟨?_, ?_, ?_, ?_⟩ <;> split <;> omega
  · by_cases c : S.left < R.left
    · exact ⟨b1, by simp [k1], by simp [Rect.join, c, f1]⟩
    · exact ⟨a1, List.mem_append.2 h1, by simp [Rect.join, c, e1]⟩
  · by_cases c : R.right < S.right
    · exact ⟨b2, by simp [k2], by simp [Rect.join, c, f2]⟩
    · exact ⟨a2, List.mem_append.2 h2, by simp [Rect.join, c, e2]⟩
  · by_cases c : S.top < R.top
    · exact ⟨b3, by simp [k3], by simp [Rect.join, c, f3]⟩
    · exact ⟨a3, List.mem_append.2 h3, by simp [Rect.join, c, e3]⟩
  · by_cases c : R.bottom < S.bottom
    · exact ⟨b4, by simp [k4], by simp [Rect.join, c, f4]⟩
    · exact ⟨a4, List.mem_append.2 h4, by simp [Rect.join, c, e4]⟩

/-- `q` is part of a region cut off. -/
def Inn (F : Forest ι) (Xs : List ι) (q : ι) : Prop := ∃ X ∈ Xs, Up F q X

open Classical in
/-- The sizes in `ds` subtracted at a region with property `P`. -/
noncomputable def due (ds : List (Option ι × Int)) (P : Option ι → Prop) : Int :=
  (ds.map (fun e => if P e.1 then e.2 else 0)).sum

omit [DecidableEq ι] in
theorem due_nil (P : Option ι → Prop) : due [] P = 0 := rfl

omit [DecidableEq ι] in
theorem due_cons_pos {o : Option ι} {d : Int} {ds : List (Option ι × Int)} {P : Option ι → Prop} (h : P o) :
    due ((o, d) :: ds) P = d + due ds P := by simp [due, h]

omit [DecidableEq ι] in
theorem due_cons_neg {o : Option ι} {d : Int} {ds : List (Option ι × Int)} {P : Option ι → Prop} (h : ¬ P o) :
    due ((o, d) :: ds) P = due ds P := by simp [due, h]

omit [DecidableEq ι] in
theorem due_congr {ds : List (Option ι × Int)} {P Q : Option ι → Prop} (h : ∀ e ∈ ds, (P e.1 ↔ Q e.1)) :
    due ds P = due ds Q := by
  induction ds with
  | nil => rfl
  | cons e ds ih =>
    obtain ⟨o, d⟩ := e
    have ih := ih (fun e he => h e (List.mem_cons_of_mem _ he))
    have h0 := h (o, d) (by simp)
    by_cases c : P o
    · rw [due_cons_pos c, due_cons_pos (h0.1 c), ih]
    · rw [due_cons_neg c, due_cons_neg (fun k => c (h0.2 k)), ih]

omit [DecidableEq ι] in
theorem due_zero {ds : List (Option ι × Int)} {P : Option ι → Prop} (h : ∀ e ∈ ds, ¬ P e.1) : due ds P = 0 := by
  rw [due_congr (Q := fun _ => False) (fun e he => iff_of_false (h e he) not_false)]
  induction ds with
  | nil => rfl
  | cons e ds ih => rw [due_cons_neg not_false]; exact ih (fun e he => h e (List.mem_cons_of_mem _ he))

/-- Deficits that are still open when those at `r` are settled. -/
def drop (ds : List (Option ι × Int)) (r : ι) : List (Option ι × Int) := ds.filter (fun e => decide (e.1 ≠ some r))

theorem mem_drop {ds : List (Option ι × Int)} {r : ι} {e : Option ι × Int} : e ∈ drop ds r ↔ e ∈ ds ∧ e.1 ≠ some r := by
  simp [drop]

theorem due_drop {ds : List (Option ι × Int)} {P : Option ι → Prop} {r : ι} :
    due ds P = due (drop ds r) P + (due ds (fun o => o = some r ∧ P (some r))) := by
  induction ds with
  | nil => rfl
  | cons e ds ih =>
    obtain ⟨o, d⟩ := e
    by_cases c : o = some r
    · have e1 : drop ((o, d) :: ds) r = drop ds r := by simp [drop, c]
      rw [e1]
      subst c
      by_cases c' : P (some r)
      · rw [due_cons_pos c', due_cons_pos (P := fun o => o = some r ∧ P (some r)) ⟨rfl, c'⟩, ih]; omega
      · rw [due_cons_neg c', due_cons_neg (P := fun o => o = some r ∧ P (some r)) (fun k => c' k.2), ih]
    · have e1 : drop ((o, d) :: ds) r = (o, d) :: drop ds r := by simp [drop, c]
      rw [e1, due_cons_neg (P := fun o => o = some r ∧ P (some r)) (fun k => c k.1)]
      by_cases c' : P o
      · rw [due_cons_pos c', due_cons_pos c', ih]; omega
      · rw [due_cons_neg c', due_cons_neg c', ih]

/-- The lists of all regions.  `F` is the forest, `L q` the list of the live region `q`, `Xs` the regions cut off,
`ds` the sizes cut off, `hot` the regions whose size and rectangle are not yet settled. -/
structure LS (D : Nat → Prop) (own : Nat → ι) (isReg : ι → Prop) (F : Forest ι) (M : Mem ι) (L : ι → List Nat)
    (Xs : List ι) (ds : List (Option ι × Int)) (hot : ι → Prop) : Prop where
  xs : ∀ X ∈ Xs, isReg X ∧ (F X).merged = false
  mem : ∀ q, isReg q → (F q).merged = false → ∀ p,
    (p ∈ L q ↔ D p ∧ Up F (own p) q ∧ ∀ X ∈ Xs, Up F (own p) X → Up F q X)
  nodup : ∀ q, isReg q → (F q).merged = false → (L q).Nodup
  linked : ∀ q, isReg q → (F q).merged = false → Linked (nx M.pts) (pv M.pts) (L q)
  head : ∀ q, isReg q → (F q).merged = false → (L q).head? = some (M.regs q).head
  low : ∀ q, isReg q → (F q).merged = false → ∀ q', isReg q' → (F q').merged = false →
    Up F (own (M.regs q).head) q' → Up F q q'
  sub : ∀ q, isReg q → (F q).merged = false → ∀ q', isReg q' → (F q').merged = false → Up F q q' →
    (∀ X ∈ Xs, Up F q X → Up F q' X) → L q <:+: L q'
  inv : Mutual D (nx M.pts) (pv M.pts)
  ends : ∀ X ∈ Xs, pv M.pts (M.regs X).head = none ∧ ∀ u, (L X).getLast? = some u → nx M.pts u = none
  top : ∀ q, isReg q → (F q).merged = false → ¬ Inn F Xs q →
    (∀ q', isReg q' → (F q').merged = false → Up F q q' → q' = q) → pv M.pts (M.regs q).head = none
  tailIn : ∀ q, isReg q → (F q).merged = false → Inn F Xs q → (L q).getLast? = some (M.regs q).tail
  sizeIn : ∀ q, isReg q → (F q).merged = false → Inn F Xs q → ¬ hot q →
    (M.regs q).size = (L q).length ∧ (M.regs q).unmerged = (L q).length
  rectIn : ∀ q, isReg q → (F q).merged = false → Inn F Xs q → ¬ hot q → Tight M.pts (L q) (M.regs q).rect
  tailOut : ∀ q, isReg q → (F q).merged = false → ¬ Inn F Xs q →
    ∃ k ≤ M.mp.length, ∃ u, Reaches (rf M.pts) k (M.regs q).tail u ∧ (L q).getLast? = some u
  quiet : ∀ q, isReg q → (F q).merged = false → ¬ Inn F Xs q → (∀ e ∈ ds, ¬ UpO F e.1 q) →
    (L q).getLast? = some (M.regs q).tail
  sizeOut : ∀ q, isReg q → (F q).merged = false → ¬ Inn F Xs q →
    (M.regs q).unmerged = (L q).length + due ds (fun o => UpO F o q) ∧
    (M.regs q).size = (M.regs q).unmerged - due ds (fun o => o = some q)
  rectOut : ∀ q, isReg q → (F q).merged = false → ¬ Inn F Xs q →
    Cover M.pts (L q) (fun a => (∃ e ∈ ds, UpO F e.1 q) ∧ ∃ X ∈ Xs, a ∈ L X) (M.regs q).rect
  refs : ∀ p, D p → rf M.pts p ≠ none → p ∈ M.mp ∧ ∃ X ∈ Xs, p ∈ L X

omit [DecidableEq ι] in
/-- Settling size and rectangle. -/
theorem LS.cool {D : Nat → Prop} {own : Nat → ι} {isReg : ι → Prop} {F : Forest ι} {M : Mem ι} {L : ι → List Nat}
    {Xs : List ι} {ds : List (Option ι × Int)} {hot hot' : ι → Prop} (h : LS D own isReg F M L Xs ds hot)
    (h1 : ∀ q, isReg q → (F q).merged = false → Inn F Xs q → hot q → ¬ hot' q →
      ((M.regs q).size = (L q).length ∧ (M.regs q).unmerged = (L q).length) ∧ Tight M.pts (L q) (M.regs q).rect) :
    LS D own isReg F M L Xs ds hot' :=
  { h with
    sizeIn := fun q a b c d => by
      by_cases e : hot q
      · exact (h1 q a b c e d).1
      · exact h.sizeIn q a b c e
    rectIn := fun q a b c d => by
      by_cases e : hot q
      · exact (h1 q a b c e d).2
      · exact h.rectIn q a b c e }

theorem head_filter {l Q : List Nat} {h : Nat} (hl : l.head? = some h) (hq : h ∉ Q) :
    (l.filter (· ∉ Q)).head? = some h := by
  cases l with
  | nil => simp at hl
  | cons a l =>
    simp only [List.head?_cons, Option.some.injEq] at hl
    subst hl
    rw [List.filter_cons_of_pos (by simpa using hq)]; rfl

theorem length_filter_infix {l Q : List Nat} (hl : Q <:+: l) (hd : l.Nodup) :
    l.length = (l.filter (· ∉ Q)).length + Q.length := by
  obtain ⟨A, C, rfl⟩ := hl
  rw [filter_infix hd]; simp only [List.length_append]; omega

/-- The node before an inner run does not belong to it. -/
theorem head_pred {nxt prv : Nat → Option Nat} {l Q : List Nat} {h : Nat} (hl : Q <:+: l) (hd : l.Nodup)
    (hk : Linked nxt prv l) (hQ : Q.head? = some h) (hh : l.head? ≠ some h) : ∃ a, prv h = some a ∧ a ∉ Q := by
  obtain ⟨A, C, rfl⟩ := hl
  cases A using List.reverseRecOn with
  | nil =>
    cases Q with
    | nil => simp at hQ
    | cons b Q => simp at hQ hh; exact absurd hQ hh
  | append_singleton A a =>
    refine ⟨a, (hk.left.between (a := a) (b := h) (by simp) hQ).2, ?_⟩
    intro hm
    rw [List.nodup_append, List.nodup_append] at hd
    exact hd.1.2.2 a (by simp) a hm rfl

section
variable {D : Nat → Prop} {own : Nat → ι} {isReg : ι → Prop} {gr : ι → Nat} {F : Forest ι} {M : Mem ι}
  {L : ι → List Nat} {Xs : List ι} {ds : List (Option ι × Int)} {hot : ι → Prop} {m : Nat}

omit [DecidableEq ι] in
theorem anti (hs : Str isReg gr F m) {a b : ι} (ha : isReg a) (hal : (F a).merged = false) (hab : Up F a b)
    (hba : Up F b a) : a = b := by
  by_contra e
  have h1 := hs.up_lt ha hal hab e
  have h2 := (hs.up (hs.up ha hab).1 hba).2
  omega

omit [DecidableEq ι] in
/-- The head of a list is a point whose label resolves to the region. -/
theorem LS.head_mem (h : LS D own isReg F M L Xs ds hot) {q : ι} (hq : isReg q) (hl : (F q).merged = false) :
    (M.regs q).head ∈ L q := List.mem_of_head? (h.head q hq hl)

omit [DecidableEq ι] in
/-- Points of different regions, none below the other. -/
theorem LS.disjoint (h : LS D own isReg F M L Xs ds hot) {q r : ι} (hq : isReg q) (hql : (F q).merged = false)
    (hr : isReg r) (hrl : (F r).merged = false) (h1 : ¬ Up F q r) (h2 : ¬ Up F r q) {p : Nat} (hp : p ∈ L q) : p ∉ L r := by
  intro hp'
  rcases up_total ((h.mem q hq hql p).1 hp).2.1 ((h.mem r hr hrl p).1 hp').2.1 with k | k
  · exact h1 k
  · exact h2 k

omit [DecidableEq ι] in
/-- Points of a region cut off and of one that is not. -/
theorem LS.apart (h : LS D own isReg F M L Xs ds hot) {q r : ι} (hq : isReg q) (hql : (F q).merged = false)
    (hr : isReg r) (hrl : (F r).merged = false) (h1 : Inn F Xs q) (h2 : ¬ Inn F Xs r) {p : Nat} (hp : p ∈ L q) :
    p ∉ L r := by
  intro hp'
  obtain ⟨X, hX, hu⟩ := h1
  have k1 := ((h.mem q hq hql p).1 hp).2.1
  exact h2 ⟨X, hX, ((h.mem r hr hrl p).1 hp').2.2 X hX (k1.trans hu)⟩

omit [DecidableEq ι] in
theorem LS.noref (h : LS D own isReg F M L Xs ds hot) {q : ι} (hq : isReg q) (hql : (F q).merged = false)
    (ho : ¬ Inn F Xs q) {p : Nat} (hp : p ∈ L q) : rf M.pts p = none := by
  by_contra hr
  obtain ⟨_, X, hX, hpX⟩ := h.refs p ((h.mem q hq hql p).1 hp).1 hr
  exact h.apart (h.xs X hX).1 (h.xs X hX).2 hq hql ⟨X, hX, .refl⟩ ho hpX hp

open Classical in
/-- The lists after `r` was cut off. -/
noncomputable def cutL (F : Forest ι) (Xs : List ι) (r : ι) (L : ι → List Nat) (q : ι) : List Nat :=
  if Inn F Xs q ∨ Up F q r then L q else (L q).filter (· ∉ L r)

omit [DecidableEq ι] in
theorem cutL_in {r q : ι} (h : Inn F Xs q ∨ Up F q r) : cutL F Xs r L q = L q := if_pos h

omit [DecidableEq ι] in
theorem cutL_out {r q : ι} (h : ¬ (Inn F Xs q ∨ Up F q r)) : cutL F Xs r L q = (L q).filter (· ∉ L r) := if_neg h

omit [DecidableEq ι] in
theorem inn_cons {r q : ι} : Inn F (r :: Xs) q ↔ Inn F Xs q ∨ Up F q r := by
  unfold Inn
  constructor
  · rintro ⟨X, hX, hu⟩
    rcases List.mem_cons.1 hX with rfl | hX
    · exact .inr hu
    · exact .inl ⟨X, hX, hu⟩
  · rintro (⟨X, hX, hu⟩ | hu)
    · exact ⟨X, List.mem_cons_of_mem _ hX, hu⟩
    · exact ⟨r, by simp, hu⟩

/-- `disconnect(r)`: the region `r` leaves the lists of its ancestors. -/
theorem LS.detach (hs : Str isReg gr F m) (h : LS D own isReg F M L Xs ds hot) {r : ι} {o : Option ι} {fuel : Nat}
    (hr : isReg r) (hrl : (F r).merged = false) (hro : ¬ Inn F Xs r) (hpar : (M.regs r).parent = o)
    (hrp : RealPar F r o) (hol : ∀ x, o = some x → (M.regs x).merged = false)
    (hds : ∀ e ∈ ds, UpO F e.1 r → e.1 = some r) (hmp : M.mp.length ≤ fuel) :
    ∃ M', disconnect fuel M r = some M' ∧ SameShape M M' ∧ M'.mp.length ≤ M.mp.length + 1 ∧
      LS D own isReg F M' (cutL F Xs r L) (r :: Xs) ((o, (M.regs r).unmerged) :: drop ds r) (fun q => hot q ∨ q = r) ∧
      (M'.regs r).size = (L r).length ∧
      ((∀ e ∈ ds, ¬ UpO F e.1 r) → (M'.regs r).unmerged = (L r).length ∧ Tight M'.pts (L r) (M'.regs r).rect) ∧
      Cover M'.pts (L r) (fun a => ∃ X ∈ Xs, a ∈ L X) (M'.regs r).rect := by
  obtain ⟨k, hk, t, hkt, hlast⟩ := h.tailOut r hr hrl hro
  have ho' : ∀ q, o = some q → isReg q ∧ (F q).merged = false ∧ Up F r q ∧ q ≠ r := by
    intro q hq
    subst hq
    cases hrp with
    | some y x k h1 h2 =>
      have h3 := hs.par_reg r hr y h1
      obtain ⟨h4, h5⟩ := hs.res_gray h3 h2
      have h6 := hs.live_lt r hr hrl y h1
      refine ⟨h4, h2.live, .head h1 h2.up, ?_⟩
      rintro rfl; omega
  have hout : ∀ q, Up F r q → ¬ Inn F Xs q := by
    rintro q hu ⟨X, hX, hu'⟩; exact hro ⟨X, hX, hu.trans hu'⟩
  obtain ⟨M', hM', hC⟩ := disconnect_spec hkt (hk.trans hmp) hpar hol (by
    intro q hq
    obtain ⟨h1, h2, h3, h4⟩ := ho' q hq
    obtain ⟨j, hj, u, hu, _⟩ := h.tailOut q h1 h2 (hout q h3)
    exact ⟨h4, j, hj.trans hmp, u, hu⟩)
  refine ⟨M', hM', hC.shape, ?_⟩
  -- the run that is cut out
  have hheads : ∀ q, isReg q → (F q).merged = false → Up F r q → q ≠ r → (M.regs q).head ∉ L r := by
    intro q hq hql hu hne hm
    have h1 := h.low q hq hql r hr hrl ((h.mem r hr hrl _).1 hm).2.1
    exact hne (anti hs hq hql h1 hu)
  have hsubr : ∀ q, isReg q → (F q).merged = false → Up F r q → L r <:+: L q := fun q hq hql hu =>
    h.sub r hr hrl q hq hql hu (fun X hX hu' => absurd ⟨X, hX, hu'⟩ hro)
  have hA : Around D (nx M.pts) (pv M.pts) (L r) (M.regs r).head t (pv M.pts (M.regs r).head) (nx M.pts t) := by
    refine ⟨h.inv, fun a ha => ((h.mem r hr hrl a).1 ha).1, h.linked r hr hrl, h.nodup r hr hrl, h.head r hr hrl, hlast,
      rfl, rfl, ?_⟩
    intro a ha
    cases o with
    | none =>
      rw [h.top r hr hrl hro (by
        intro q' hq' hql' hu
        by_contra e
        obtain ⟨x, hx, _⟩ := (hrp.up_iff hql' (Ne.symm e)).1 hu
        simp at hx)] at ha
      simp at ha
    | some q =>
      obtain ⟨h1, h2, h3, h4⟩ := ho' q rfl
      obtain ⟨b, hb, hbo⟩ := head_pred (hsubr q h1 h2 h3) (h.nodup q h1 h2) (h.linked q h1 h2) (h.head r hr hrl)
        (by
          rw [h.head q h1 h2]; intro e
          exact hheads q h1 h2 h3 h4 (by rw [Option.some.inj e]; exact h.head_mem hr hrl))
      rw [hb] at ha; obtain rfl := Option.some.inj ha; exact hbo
  have hone : ∀ q, o = some q → ¬ Inn F Xs q := fun q hq => hout q (ho' q hq).2.2.1
  -- outer regions after the cut
  have hdisj : ∀ q, isReg q → (F q).merged = false → ¬ Up F q r → ¬ Up F r q → (L q).filter (· ∉ L r) = L q := by
    intro q hq hql h1 h2
    rw [List.filter_eq_self]
    intro a ha
    simpa using h.disjoint hq hql hr hrl h1 h2 ha
  have hlive : ∀ q, isReg q → (F q).merged = false → ¬ Inn F (r :: Xs) q → ¬ Inn F Xs q ∧ ¬ Up F q r ∧
      cutL F Xs r L q = (L q).filter (· ∉ L r) ∧ q ≠ r := by
    intro q hq hql hi
    rw [inn_cons] at hi
    refine ⟨fun k => hi (.inl k), fun k => hi (.inr k), cutL_out hi, ?_⟩
    rintro rfl; exact hi (.inr .refl)
  have hUr : (M.regs r).unmerged = (L r).length + due ds (fun o => o = some r) := by
    rw [(h.sizeOut r hr hrl hro).1]
    congr 1
    refine due_congr ?_
    intro e he
    exact ⟨hds e he, fun k => ⟨r, k, .refl⟩⟩
  have hinner : ∀ q, isReg q → (F q).merged = false → ¬ Inn F Xs q → Up F q r → q ≠ r → ∀ e ∈ ds, ¬ UpO F e.1 q := by
    rintro q hq hql hi hu hne e he ⟨x, hx, hxq⟩
    have := hds e he ⟨x, hx, hxq.trans hu⟩
    rw [hx] at this; obtain rfl := Option.some.inj this
    exact hne (anti hs hq hql hu hxq)
  have hLr : cutL F Xs r L r = L r := cutL_in (.inr .refl)
  have hLX : ∀ X ∈ Xs, cutL F Xs r L X = L X := fun X hX => cutL_in (.inl ⟨X, hX, .refl⟩)
  have hsz : ∀ q, o ≠ some q → (M'.regs q).size = (M.regs q).size := by
    intro q hq; rw [hC.size, if_neg hq]
  have hor : o ≠ some r := fun e => (ho' r e).2.2.2 rfl
  -- references after the cut
  have hrefs : ∀ a, rf M'.pts a ≠ none → rf M.pts a ≠ none ∨ (a = t ∧ t ∈ M'.mp) := by
    intro a ha
    cases o with
    | none =>
      rw [(hC.root rfl).1, ne_eq, short_none hkt] at ha; exact .inl ha
    | some q =>
      obtain ⟨h1, h2, h3, h4⟩ := ho' q rfl
      obtain ⟨j, hj, u, hu, hul⟩ := h.tailOut q h1 h2 (hout q h3)
      obtain ⟨j', hj', hu'⟩ := short_reaches hkt _ _ _ hu
      by_cases e : u = t
      · obtain ⟨e1, e2⟩ := hC.same q u j rfl hu e
        by_cases e' : a = t
        · exact .inr ⟨e', by rw [e2]; simp⟩
        · rw [e1, Function.update_of_ne e', ne_eq, short_none hu', short_none hkt] at ha
          exact .inl ha
      · obtain ⟨e1, e2⟩ := hC.other q u j rfl hu e
        rw [e1, ne_eq, short_none hu', short_none hkt] at ha
        exact .inl ha
  have hmpsub : (∀ a ∈ M.mp, a ∈ M'.mp) ∧ M.mp.length ≤ M'.mp.length ∧ M'.mp.length ≤ M.mp.length + 1 := by
    cases o with
    | none => rw [(hC.root rfl).2]; exact ⟨fun a ha => ha, le_refl _, by omega⟩
    | some q =>
      obtain ⟨h1, h2, h3, h4⟩ := ho' q rfl
      obtain ⟨j, hj, u, hu, hul⟩ := h.tailOut q h1 h2 (hout q h3)
      by_cases e : u = t
      · rw [(hC.same q u j rfl hu e).2]
        exact ⟨fun a ha => List.mem_cons_of_mem _ ha, by simp, by simp⟩
      · rw [(hC.other q u j rfl hu e).2]; exact ⟨fun a ha => ha, le_refl _, by omega⟩
  -- real tails after the cut
  have htails : ∀ q, isReg q → (F q).merged = false → ¬ Inn F (r :: Xs) q →
      ∃ k ≤ M'.mp.length, ∃ u, Reaches (rf M'.pts) k (M.regs q).tail u ∧ ((L q).filter (· ∉ L r)).getLast? = some u := by
    intro q hq hql hi
    obtain ⟨i1, i2, i3, i4⟩ := hlive q hq hql hi
    obtain ⟨j, hj, u, hu, hul⟩ := h.tailOut q hq hql i1
    obtain ⟨j1, hj1, hu1⟩ := short_reaches hkt _ _ _ hu
    -- a list that ends in `t` belongs to an ancestor of `r`
    have hupr : u = t → Up F r q := by
      rintro rfl
      by_contra hn
      exact h.disjoint hq hql hr hrl i2 hn (List.mem_of_getLast? hul) (List.mem_of_getLast? hlast)
    have hkeep : u ≠ t → ((L q).filter (· ∉ L r)).getLast? = some u := by
      intro hut
      by_cases hn : Up F r q
      · refine last_filter (hsubr q hq hql hn) (h.nodup q hq hql) hul ?_
        intro hm
        have := last_nested (hsubr q hq hql hn) (h.nodup q hq hql) hul hm
        rw [hlast] at this; exact hut (Option.some.inj this).symm
      · rw [hdisj q hq hql i2 hn]; exact hul
    cases o with
    | none =>
      obtain ⟨e1, e2⟩ := hC.root rfl
      rw [e1]
      refine ⟨j1, by omega, u, hu1, hkeep ?_⟩
      intro hut
      obtain ⟨x, hx, _⟩ := (hrp.up_iff hql (Ne.symm i4)).1 (hupr hut)
      simp at hx
    | some q0 =>
      obtain ⟨h1, h2, h3, h4⟩ := ho' q0 rfl
      obtain ⟨i, hi', v, hv, hvl⟩ := h.tailOut q0 h1 h2 (hout q0 h3)
      obtain ⟨i1', hi1', hv1⟩ := short_reaches hkt _ _ _ hv
      obtain ⟨j2, hj2, hu2⟩ := short_reaches hv1 _ _ _ hu1
      have hvt : u = t → v = t := by
        intro hut
        have hup := (hrp.up_iff hql (Ne.symm i4)).1 (hupr hut)
        obtain ⟨x, hx, hxq⟩ := hup
        obtain rfl := Option.some.inj hx
        have hsub := h.sub q0 h1 h2 q hq hql hxq (fun X hX hu' => absurd ⟨X, hX, hu'⟩ (hout q0 h3))
        have hm : u ∈ L q0 := by
          rw [hut]; exact (hsubr q0 h1 h2 h3).subset (List.mem_of_getLast? hlast)
        have := last_nested hsub (h.nodup q hq hql) hul hm
        rw [hvl] at this; rw [← hut]; exact Option.some.inj this
      by_cases e : v = t
      · obtain ⟨e1, e2⟩ := hC.same q0 v i rfl hv e
        rw [e1, e2, List.length_cons]
        have htn : short (short (rf M.pts) (M.regs r).tail t) (M.regs q0).tail v t = none := by
          rw [short_none hv1, short_none hkt]; exact hkt.end
        by_cases hut : u = t
        · have hup := hupr hut
          obtain ⟨a, ha1, ha2, ha3⟩ := hA.last_cut (hsubr q hq hql hup) (h.nodup q hq hql) (h.linked q hq hql)
            (by rw [← hut]; exact hul)
            (by
              rw [h.head q hq hql]; intro e'
              exact hheads q hq hql hup i4 (by rw [Option.some.inj e']; exact h.head_mem hr hrl))
          refine ⟨j2 + 1, by omega, a, ?_, ha3⟩
          rw [ha1]
          refine reaches_extend ?_ ?_ ?_
          · rw [short_none hv1, short_none hkt]; exact h.noref hq hql i1 ha2
          · rintro rfl; exact hA.p_out _ ha1 hA.t_mem
          · rw [hut] at hu2; exact hu2
        · exact ⟨j2, by omega, u, reaches_set htn hut hu2, hkeep hut⟩
      · obtain ⟨e1, e2⟩ := hC.other q0 v i rfl hv e
        rw [e1, e2]
        exact ⟨j2, by omega, u, hu2, hkeep (fun hut => e (hvt hut))⟩
  have hcut : LS D own isReg F M' (cutL F Xs r L) (r :: Xs) ((o, (M.regs r).unmerged) :: drop ds r) (fun q => hot q ∨ q = r) := by
    refine
      { xs := ?_, mem := ?_, nodup := ?_, linked := ?_, head := ?_, low := ?_, sub := ?_, inv := ?_, ends := ?_, top := ?_,
        tailIn := ?_, sizeIn := ?_, rectIn := ?_, tailOut := ?_, quiet := ?_, sizeOut := ?_, rectOut := ?_, refs := ?_ }
    · intro X hX
      rcases List.mem_cons.1 hX with rfl | hX
      · exact ⟨hr, hrl⟩
      · exact h.xs X hX
    · intro q hq hql p
      by_cases hi : Inn F Xs q ∨ Up F q r
      · rw [cutL_in hi, h.mem q hq hql p]
        constructor
        · rintro ⟨h1, h2, h3⟩
          refine ⟨h1, h2, ?_⟩
          intro X hX hu
          rcases List.mem_cons.1 hX with rfl | hX
          · rcases hi with ⟨Y, hY, hqY⟩ | hi
            · rcases up_total hu (h2.trans hqY) with k | k
              · exact absurd ⟨Y, hY, k⟩ hro
              · exact hqY.trans k
            · exact hi
          · exact h3 X hX hu
        · rintro ⟨h1, h2, h3⟩
          exact ⟨h1, h2, fun X hX => h3 X (List.mem_cons_of_mem _ hX)⟩
      · rw [cutL_out hi, List.mem_filter, h.mem q hq hql p]
        have hi1 : ¬ Inn F Xs q := fun k => hi (.inl k)
        have hi2 : ¬ Up F q r := fun k => hi (.inr k)
        constructor
        · rintro ⟨⟨h1, h2, h3⟩, h4⟩
          refine ⟨h1, h2, ?_⟩
          intro X hX hu
          rcases List.mem_cons.1 hX with rfl | hX
          · exfalso
            have h4' : p ∉ L X := by simpa using h4
            refine h4' ((h.mem X hr hrl p).2 ⟨h1, hu, ?_⟩)
            intro Y hY hu'
            exact absurd ⟨Y, hY, h3 Y hY hu'⟩ hi1
          · exact h3 X hX hu
        · rintro ⟨h1, h2, h3⟩
          refine ⟨⟨h1, h2, fun X hX => h3 X (List.mem_cons_of_mem _ hX)⟩, ?_⟩
          have : p ∉ L r := fun hm => hi2 (h3 r (by simp) ((h.mem r hr hrl p).1 hm).2.1)
          simpa using this
    · intro q hq hql
      by_cases hi : Inn F Xs q ∨ Up F q r
      · rw [cutL_in hi]; exact h.nodup q hq hql
      · rw [cutL_out hi]; exact (h.nodup q hq hql).filter _
    · intro q hq hql
      rw [hC.next, hC.prev]
      by_cases hi : Inn F Xs q ∨ Up F q r
      · rw [cutL_in hi]
        by_cases hi1 : Inn F Xs q
        · exact hA.outside (fun a ha => h.apart hq hql hr hrl hi1 hro ha) (h.linked q hq hql)
        · have hu := hi.resolve_left hi1
          refine hA.inside ?_ (h.linked q hq hql)
          exact (h.sub q hq hql r hr hrl hu (fun X hX hu' => absurd ⟨X, hX, hu'⟩ hi1)).subset
      · rw [cutL_out hi]
        by_cases hu : Up F r q
        · exact hA.across (hsubr q hq hql hu) (h.nodup q hq hql) (h.linked q hq hql)
        · rw [hdisj q hq hql (fun k => hi (.inr k)) hu]
          exact hA.outside (fun a ha => h.disjoint hq hql hr hrl (fun k => hi (.inr k)) hu ha) (h.linked q hq hql)
    · intro q hq hql
      rw [hC.head]
      by_cases hi : Inn F Xs q ∨ Up F q r
      · rw [cutL_in hi]; exact h.head q hq hql
      · rw [cutL_out hi]
        refine head_filter (h.head q hq hql) ?_
        intro hm
        exact hi (.inr (h.low q hq hql r hr hrl ((h.mem r hr hrl _).1 hm).2.1))
    · intro q hq hql q' hq' hql' hu
      rw [hC.head] at hu
      exact h.low q hq hql q' hq' hql' hu
    · intro q hq hql q' hq' hql' hu hX
      by_cases hi' : Inn F Xs q' ∨ Up F q' r
      · have hi : Inn F Xs q ∨ Up F q r := by
          rcases hi' with ⟨X, h1, h2⟩ | h1
          · exact .inl ⟨X, h1, hu.trans h2⟩
          · exact .inr (hu.trans h1)
        rw [cutL_in hi, cutL_in hi']
        exact h.sub q hq hql q' hq' hql' hu (fun X h1 => hX X (List.mem_cons_of_mem _ h1))
      · have hi : ¬ (Inn F Xs q ∨ Up F q r) := by
          rintro (⟨X, h1, h2⟩ | h1)
          · exact hi' (.inl ⟨X, h1, hX X (List.mem_cons_of_mem _ h1) h2⟩)
          · exact hi' (.inr (hX r (by simp) h1))
        rw [cutL_out hi, cutL_out hi']
        exact (h.sub q hq hql q' hq' hql' hu (fun X h1 => hX X (List.mem_cons_of_mem _ h1))).filter _
    · rw [hC.next, hC.prev]; exact hA.mutual
    · intro X hX
      rw [hC.next, hC.prev, hC.head]
      by_cases e : X = r
      · subst e
        rw [hLr, hlast]
        refine ⟨by simp [cutP], ?_⟩
        intro u hu; obtain rfl := Option.some.inj hu; simp [cutN]
      · have hX' : X ∈ Xs := by
          rcases List.mem_cons.1 hX with k | k
          · exact absurd k e
          · exact k
        obtain ⟨h1, h2⟩ := h.ends X hX'
        obtain ⟨x1, x2⟩ := h.xs X hX'
        have hap : ∀ p ∈ L X, p ∉ L r := fun p hp => h.apart x1 x2 hr hrl ⟨X, hX', .refl⟩ hro hp
        rw [hLX X hX']
        constructor
        · have e1 : (M.regs X).head ≠ (M.regs r).head := fun k => hap _ (h.head_mem x1 x2) (by rw [k]; exact h.head_mem hr hrl)
          have e2 : nx M.pts t ≠ some (M.regs X).head := by
            intro k
            have := (h.inv.next _ _ (hA.sub _ hA.t_mem) k).2
            rw [h1] at this; simp at this
          simp only [cutP, e1, e2, if_false]; exact h1
        · intro u hu
          have hu' := h2 u hu
          have e1 : u ≠ t := fun k => hap _ (List.mem_of_getLast? hu) (by rw [k]; exact hA.t_mem)
          have e2 : pv M.pts (M.regs r).head ≠ some u := by
            intro k
            have := (h.inv.prev _ _ (hA.sub _ hA.h_mem) k).2
            rw [hu'] at this; simp at this
          simp only [cutN, e1, e2, if_false]; exact hu'
    · intro q hq hql hi hroot
      obtain ⟨i1, i2, i3, i4⟩ := hlive q hq hql hi
      have h1 := h.top q hq hql i1 hroot
      rw [hC.prev, hC.head]
      have e1 : (M.regs q).head ≠ (M.regs r).head := by
        intro k
        have : (M.regs q).head ∈ L r := by rw [k]; exact h.head_mem hr hrl
        exact i2 (h.low q hq hql r hr hrl ((h.mem r hr hrl _).1 this).2.1)
      have e2 : nx M.pts t ≠ some (M.regs q).head := by
        intro k
        have := (h.inv.next _ _ (hA.sub _ hA.t_mem) k).2
        rw [h1] at this; simp at this
      simp only [cutP, e1, e2, if_false]; exact h1
    · intro q hq hql hi
      rw [inn_cons] at hi
      rw [cutL_in hi, hC.tail]
      by_cases e : q = r
      · subst e; rw [if_pos rfl]; exact hlast
      · rw [if_neg e]
        by_cases hi1 : Inn F Xs q
        · exact h.tailIn q hq hql hi1
        · exact h.quiet q hq hql hi1 (hinner q hq hql hi1 (hi.resolve_left hi1) e)
    · intro q hq hql hi hh
      rw [inn_cons] at hi
      have e : q ≠ r := fun k => hh (.inr k)
      rw [cutL_in hi, hC.unmerged]
      have hoq : o ≠ some q := by
        intro k
        rcases hi with k' | k'
        · exact hone q k k'
        · exact e (anti hs hq hql k' (ho' q k).2.2.1)
      rw [hsz q hoq]
      by_cases hi1 : Inn F Xs q
      · exact h.sizeIn q hq hql hi1 (fun k => hh (.inl k))
      · have hz := hinner q hq hql hi1 (hi.resolve_left hi1) e
        obtain ⟨s1, s2⟩ := h.sizeOut q hq hql hi1
        have z1 : due ds (fun o => UpO F o q) = 0 := due_zero hz
        have z2 : due ds (fun o => o = some q) = 0 := due_zero (fun e he k => hz e he ⟨q, k, .refl⟩)
        omega
    · intro q hq hql hi hh
      rw [inn_cons] at hi
      have e : q ≠ r := fun k => hh (.inr k)
      rw [cutL_in hi, hC.rect]
      by_cases hi1 : Inn F Xs q
      · exact (h.rectIn q hq hql hi1 (fun k => hh (.inl k))).congr (fun a _ => hC.xy a)
      · have hz := hinner q hq hql hi1 (hi.resolve_left hi1) e
        refine Tight.congr ((h.rectOut q hq hql hi1).tight ?_) (fun a _ => hC.xy a)
        rintro a ⟨⟨e, he, hu⟩, _⟩; exact hz e he hu
    · intro q hq hql hi
      obtain ⟨i1, i2, i3, i4⟩ := hlive q hq hql hi
      rw [i3, hC.tail, if_neg i4]
      exact htails q hq hql hi
    · intro q hq hql hi hz
      obtain ⟨i1, i2, i3, i4⟩ := hlive q hq hql hi
      have hnu : ¬ Up F r q := by
        intro k
        exact hz _ (List.mem_cons_self ..) ((hrp.up_iff hql (Ne.symm i4)).1 k)
      rw [i3, hdisj q hq hql i2 hnu, hC.tail, if_neg i4]
      refine h.quiet q hq hql i1 ?_
      intro e he hu
      by_cases c : e.1 = some r
      · rw [c] at hu
        obtain ⟨x, hx, hxq⟩ := hu
        obtain rfl := Option.some.inj hx
        exact hnu hxq
      · exact hz e (List.mem_cons_of_mem _ (mem_drop.2 ⟨he, c⟩)) hu
    · intro q hq hql hi
      obtain ⟨i1, i2, i3, i4⟩ := hlive q hq hql hi
      obtain ⟨s1, s2⟩ := h.sizeOut q hq hql i1
      rw [i3, hC.unmerged, hC.size]
      have hiff := hrp.up_iff hql (Ne.symm i4)
      have d1 := due_drop (ds := ds) (P := fun o => UpO F o q) (r := r)
      have d2 := due_drop (ds := ds) (P := fun o => o = some q) (r := r)
      have d3 : due ds (fun o => o = some r ∧ (some r = some q)) = 0 := by
        refine due_zero ?_
        rintro e _ ⟨_, k⟩; exact i4 (Option.some.inj k).symm
      have d2' : due ds (fun o => o = some q) = due (drop ds r) (fun o => o = some q) := by
        rw [d2, d3]; omega
      constructor
      · by_cases hu : Up F r q
        · rw [due_cons_pos (hiff.1 hu)]
          have hlen := length_filter_infix (hsubr q hq hql hu) (h.nodup q hq hql)
          have d4 : due ds (fun o => o = some r ∧ UpO F (some r) q) = due ds (fun o => o = some r) :=
            due_congr (fun e _ => ⟨fun k => k.1, fun k => ⟨k, r, rfl, hu⟩⟩)
          rw [s1, d1, d4, hlen, hUr]; push_cast; omega
        · rw [due_cons_neg (fun k => hu (hiff.2 k)), hdisj q hq hql i2 hu]
          have d4 : due ds (fun o => o = some r ∧ UpO F (some r) q) = 0 := by
            refine due_zero ?_
            rintro e _ ⟨_, x, hx, hxq⟩; obtain rfl := Option.some.inj hx; exact hu hxq
          rw [s1, d1, d4]; omega
      · by_cases e : o = some q
        · rw [if_pos e, due_cons_pos (P := fun o => o = some q) e, s2, d2']; omega
        · rw [if_neg e, due_cons_neg (P := fun o => o = some q) e, s2, d2']
    · intro q hq hql hi
      obtain ⟨i1, i2, i3, i4⟩ := hlive q hq hql hi
      rw [i3, hC.rect]
      refine (h.rectOut q hq hql i1).mono hC.xy (fun a ha => (List.mem_filter.1 ha).1) ?_
      have hiff := hrp.up_iff hql (Ne.symm i4)
      rintro a (ha | ⟨⟨e, he, hu⟩, X, hX, haX⟩)
      · by_cases hm : a ∈ L r
        · right
          refine ⟨⟨_, List.mem_cons_self .., hiff.1 ?_⟩, r, by simp, by rw [hLr]; exact hm⟩
          by_contra hn
          exact h.disjoint hq hql hr hrl i2 hn ha hm
        · exact .inl (List.mem_filter.2 ⟨ha, by simpa using hm⟩)
      · right
        refine ⟨?_, X, List.mem_cons_of_mem _ hX, by rw [hLX X hX]; exact haX⟩
        by_cases c : e.1 = some r
        · rw [c] at hu
          obtain ⟨x, hx, hxq⟩ := hu
          obtain rfl := Option.some.inj hx
          exact ⟨_, List.mem_cons_self .., hiff.1 hxq⟩
        · exact ⟨e, List.mem_cons_of_mem _ (mem_drop.2 ⟨he, c⟩), hu⟩
    · intro p hp hne
      rcases hrefs p hne with k | ⟨k1, k2⟩
      · obtain ⟨h1, X, hX, h2⟩ := h.refs p hp k
        exact ⟨hmpsub.1 p h1, X, List.mem_cons_of_mem _ hX, by rw [hLX X hX]; exact h2⟩
      · exact ⟨by rw [k1]; exact k2, r, by simp, by rw [hLr, k1]; exact hA.t_mem⟩
  obtain ⟨s1, s2⟩ := h.sizeOut r hr hrl hro
  refine ⟨hmpsub.2.2, hcut, ?_, ?_, ?_⟩
  · rw [hsz r hor, s2, hUr]; omega
  · intro hz
    have z1 : due ds (fun o => o = some r) = 0 := due_zero (fun e he k => hz e he ⟨r, k, .refl⟩)
    refine ⟨by rw [hC.unmerged, hUr, z1]; omega, ?_⟩
    rw [hC.rect]
    refine Tight.congr ((h.rectOut r hr hrl hro).tight ?_) (fun a _ => hC.xy a)
    rintro a ⟨⟨e, he, hu⟩, _⟩; exact hz e he hu
  · rw [hC.rect]
    refine (h.rectOut r hr hrl hro).mono hC.xy (fun a ha => ha) ?_
    rintro a (ha | ⟨_, ha⟩)
    · exact .inl ha
    · exact .inr ha
end

end Verif.V1
