import Verif.Model.ConnectV1
import Verif.Proof.ListsV1

/-!
# Fast MSER V1: cutting a run out of a linked list, and references to real tails

Nothing here refers to regions.
-/

namespace Verif.V1

open Function (update)
open Verif.Spec (Linked)

/-! ### References -/

/-- `u` is reached from `t` by following `k` references and has none itself. -/
def Reaches (rf : Nat → Option Nat) : Nat → Nat → Nat → Prop
  | 0, t, u => t = u ∧ rf u = none
  | k + 1, t, u => ∃ t', rf t = some t' ∧ Reaches rf k t' u

def rf (pts : Nat → Point) (a : Nat) : Option Nat := (pts a).ref

theorem Reaches.end {f : Nat → Option Nat} : ∀ {k t u : Nat}, Reaches f k t u → f u = none
  | 0, _, _, h => h.2
  | _ + 1, _, _, ⟨_, _, h⟩ => h.end

theorem Reaches.det {f : Nat → Option Nat} : ∀ {k j t u v : Nat}, Reaches f k t u → Reaches f j t v → k = j ∧ u = v
  | 0, 0, _, _, _, h, h' => ⟨rfl, h.1.symm.trans h'.1⟩
  | 0, _ + 1, t, u, v, h, ⟨_, h', _⟩ => by rw [h.1, h.2] at h'; simp at h'
  | _ + 1, 0, t, u, v, ⟨_, h', _⟩, h => by rw [h.1, h.2] at h'; simp at h'
  | k + 1, j + 1, t, u, v, ⟨t', h1, h2⟩, ⟨t'', h3, h4⟩ => by
    rw [h1] at h3; obtain rfl := Option.some.inj h3
    obtain ⟨e1, e2⟩ := h2.det h4
    exact ⟨by rw [e1], e2⟩

theorem followRef_reaches {pts : Nat → Point} : ∀ {k fuel t u : Nat}, Reaches (rf pts) k t u → k ≤ fuel →
    followRef pts fuel t = some u
  | 0, fuel, t, u, ⟨h1, h2⟩, _ => by
    subst h1; unfold followRef; simp only [rf] at h2; rw [h2]
  | k + 1, 0, t, u, _, h => by omega
  | k + 1, fuel + 1, t, u, ⟨t', h1, h2⟩, h => by
    unfold followRef; simp only [rf] at h1; rw [h1]
    exact followRef_reaches h2 (by omega)

/-- The references after a call of `get_real_tail`. -/
def short (f : Nat → Option Nat) (t u : Nat) : Nat → Option Nat := if u ≠ t then update f t (some u) else f

theorem short_reaches {f : Nat → Option Nat} {k t u : Nat} (h : Reaches f k t u) : ∀ j a v : Nat, Reaches f j a v →
    ∃ j', j' ≤ j ∧ Reaches (short f t u) j' a v := by
  by_cases e : u = t
  · intro j a v h'; exact ⟨j, le_refl _, by simp [short, e, h']⟩
  have hk : k ≠ 0 := by rintro rfl; exact e h.1.symm
  have hs : short f t u = update f t (some u) := by simp [short, e]
  have hu : short f t u u = none := by rw [hs, Function.update_of_ne e]; exact h.end
  intro j
  induction j with
  | zero =>
    rintro a v ⟨rfl, h2⟩
    refine ⟨0, le_refl _, rfl, ?_⟩
    have : a ≠ t := by
      rintro rfl
      cases k with
      | zero => exact hk rfl
      | succ k => obtain ⟨_, h3, _⟩ := h; rw [h2] at h3; simp at h3
    rw [hs, Function.update_of_ne this]; exact h2
  | succ j ih =>
    rintro a v ⟨a', h1, h2⟩
    by_cases ha : a = t
    · subst ha
      obtain ⟨e1, rfl⟩ := h.det (show Reaches f (j + 1) a v from ⟨a', h1, h2⟩)
      exact ⟨1, by omega, u, by rw [hs]; simp, rfl, hu⟩
    · obtain ⟨j', h3, h4⟩ := ih _ _ h2
      exact ⟨j' + 1, by omega, a', by rw [hs, Function.update_of_ne ha]; exact h1, h4⟩

theorem short_none {f : Nat → Option Nat} {k t u : Nat} (h : Reaches f k t u) (a : Nat) :
    short f t u a = none ↔ f a = none := by
  by_cases e : u = t
  · simp [short, e]
  · have hs : short f t u = update f t (some u) := by simp [short, e]
    by_cases ha : a = t
    · subst ha
      rw [hs]; simp only [Function.update_self]
      cases k with
      | zero => exact absurd h.1.symm e
      | succ k => obtain ⟨_, h3, _⟩ := h; simp [h3]
    · rw [hs, Function.update_of_ne ha]

theorem reaches_set {f : Nat → Option Nat} {r : Nat} {x : Option Nat} (hr : f r = none) : ∀ {j a v : Nat}, v ≠ r →
    Reaches f j a v → Reaches (update f r x) j a v
  | 0, a, v, hv, ⟨h1, h2⟩ => ⟨h1, by rw [Function.update_of_ne hv]; exact h2⟩
  | j + 1, a, v, hv, ⟨a', h1, h2⟩ => by
    have : a ≠ r := by rintro rfl; rw [hr] at h1; simp at h1
    exact ⟨a', by rw [Function.update_of_ne this]; exact h1, reaches_set hr hv h2⟩

theorem reaches_extend {f : Nat → Option Nat} {r p : Nat} (hp : f p = none) (hpr : p ≠ r) : ∀ {j a : Nat},
    Reaches f j a r → Reaches (update f r (some p)) (j + 1) a p
  | 0, a, ⟨h1, h2⟩ => ⟨p, by rw [h1]; simp, rfl, by rw [Function.update_of_ne hpr]; exact hp⟩
  | j + 1, a, ⟨a', h1, h2⟩ => by
    have : a ≠ r := by rintro rfl; rw [h2.end] at h1; simp at h1
    exact ⟨a', by rw [Function.update_of_ne this]; exact h1, reaches_extend hp hpr h2⟩

theorem getRealTail_spec {pts : Nat → Point} {k fuel t u : Nat} (h : Reaches (rf pts) k t u) (hk : k ≤ fuel) :
    ∃ pts', getRealTail fuel pts t = some (pts', u) ∧ rf pts' = short (rf pts) t u ∧ nx pts' = nx pts ∧ pv pts' = pv pts ∧
      ∀ a, (pts' a).x = (pts a).x ∧ (pts' a).y = (pts a).y := by
  unfold getRealTail
  rw [followRef_reaches h hk]
  refine ⟨_, rfl, ?_⟩
  by_cases e : u = t
  · simp [short, e]
  · simp only [ne_eq, e, not_false_eq_true, if_true, short]
    refine ⟨?_, ?_, ?_, ?_⟩
    · funext a; by_cases ha : a = t
      · subst ha; simp [rf]
      · simp [rf, Function.update_of_ne ha]
    · funext a; by_cases ha : a = t
      · subst ha; simp [nx]
      · simp [nx, Function.update_of_ne ha]
    · funext a; by_cases ha : a = t
      · subst ha; simp [pv]
      · simp [pv, Function.update_of_ne ha]
    · intro a; by_cases ha : a = t
      · subst ha; simp
      · simp [Function.update_of_ne ha]

/-! ### Cutting a run out -/

/-- Successors after the run from `h` to `t` was cut out: `p` preceded it, `n` followed it. -/
def cutN (nxt : Nat → Option Nat) (t : Nat) (p n : Option Nat) (a : Nat) : Option Nat :=
  if a = t then none else if p = some a then n else nxt a

/-- Predecessors after that. -/
def cutP (prv : Nat → Option Nat) (h : Nat) (p n : Option Nat) (b : Nat) : Option Nat :=
  if b = h then none else if n = some b then p else prv b

/-- Successor and predecessor are inverse to each other on `D`. -/
structure Mutual (D : Nat → Prop) (nxt prv : Nat → Option Nat) : Prop where
  next : ∀ a b, D a → nxt a = some b → D b ∧ prv b = some a
  prev : ∀ a b, D b → prv b = some a → D a ∧ nxt a = some b

theorem Linked.imp_mem {n1 p1 n2 p2 : Nat → Option Nat} : ∀ {l : List Nat},
    (∀ a ∈ l, ∀ b ∈ l, n1 a = some b → p1 b = some a → n2 a = some b ∧ p2 b = some a) →
    Linked n1 p1 l → Linked n2 p2 l
  | [], _, _ => by simp [Linked]
  | [b], _, _ => by simp [Linked]
  | b :: c :: l, h1, h => by
    rw [Linked.cons] at h ⊢
    exact ⟨h1 b (by simp) c (by simp) h.1.1 h.1.2,
      Linked.imp_mem (fun a ha b hb => h1 a (List.mem_cons_of_mem _ ha) b (List.mem_cons_of_mem _ hb)) h.2⟩

theorem _root_.Verif.Spec.Linked.left {nxt prv : Nat → Option Nat} {l k : List Nat} (h : Linked nxt prv (l ++ k)) : Linked nxt prv l :=
  (List.isChain_append.1 h).1

theorem _root_.Verif.Spec.Linked.right {nxt prv : Nat → Option Nat} {l k : List Nat} (h : Linked nxt prv (l ++ k)) : Linked nxt prv k :=
  (List.isChain_append.1 h).2.1

theorem _root_.Verif.Spec.Linked.between {nxt prv : Nat → Option Nat} {l k : List Nat} (h : Linked nxt prv (l ++ k)) {a b : Nat}
    (ha : l.getLast? = some a) (hb : k.head? = some b) : nxt a = some b ∧ prv b = some a :=
  (List.isChain_append.1 h).2.2 a ha b hb

theorem Linked.succ_in {nxt prv : Nat → Option Nat} : ∀ {l : List Nat}, Linked nxt prv l → ∀ a ∈ l,
    l.getLast? = some a ∨ ∃ b ∈ l, nxt a = some b ∧ prv b = some a
  | [], _, a, ha => by simp at ha
  | [b], _, a, ha => by simp at ha; simp [ha]
  | b :: c :: l, h, a, ha => by
    rw [Linked.cons] at h
    rcases List.mem_cons.1 ha with rfl | ha
    · exact .inr ⟨c, by simp, h.1⟩
    · rw [List.getLast?_cons_cons]
      exact (Linked.succ_in h.2 a ha).imp id (fun ⟨b, hb, k⟩ => ⟨b, List.mem_cons_of_mem _ hb, k⟩)

theorem Linked.pred_in {nxt prv : Nat → Option Nat} : ∀ {l : List Nat}, Linked nxt prv l → ∀ b ∈ l,
    l.head? = some b ∨ ∃ a ∈ l, nxt a = some b ∧ prv b = some a
  | [], _, a, ha => by simp at ha
  | [b], _, a, ha => by simp at ha; simp [ha]
  | b :: c :: l, h, a, ha => by
    rw [Linked.cons] at h
    rcases List.mem_cons.1 ha with rfl | ha
    · exact .inl (by simp)
    · rcases Linked.pred_in h.2 a ha with e | ⟨x, hx, k⟩
      · simp at e; subst e; exact .inr ⟨b, by simp, h.1⟩
      · exact .inr ⟨x, List.mem_cons_of_mem _ hx, k⟩

/-- A run without links at its ends. -/
theorem mutual_of_run {nxt prv : Nat → Option Nat} {l : List Nat} (h : Linked nxt prv l)
    (hf : ∀ a, l.head? = some a → prv a = none) (ht : ∀ a, l.getLast? = some a → nxt a = none) :
    Mutual (· ∈ l) nxt prv := by
  constructor
  · intro a b ha e
    rcases Linked.succ_in h a ha with k | ⟨b', hb, k1, k2⟩
    · rw [ht a k] at e; simp at e
    · rw [k1] at e; obtain rfl := Option.some.inj e; exact ⟨hb, k2⟩
  · intro a b hb e
    rcases Linked.pred_in h b hb with k | ⟨a', ha, k1, k2⟩
    · rw [hf b k] at e; simp at e
    · rw [k2] at e; obtain rfl := Option.some.inj e; exact ⟨ha, k1⟩

/-- A node of a run other than the first has its predecessor in the run, and that is not the last node. -/
theorem Linked.pred_mem {nxt prv : Nat → Option Nat} : ∀ {l : List Nat}, Linked nxt prv l → l.Nodup → ∀ n ∈ l,
    l.head? ≠ some n → ∃ a ∈ l, prv n = some a ∧ l.getLast? ≠ some a
  | [], _, _, n, hn, _ => by simp at hn
  | [b], _, _, n, hn, h => by simp at hn; subst hn; simp at h
  | b :: c :: l, h, hd, n, hn, hh => by
    rw [Linked.cons] at h
    rw [List.nodup_cons] at hd
    rcases List.mem_cons.1 hn with rfl | hn
    · simp at hh
    · by_cases e : n = c
      · subst e
        refine ⟨b, by simp, h.1.2, ?_⟩
        rw [List.getLast?_cons_cons]
        intro e
        exact hd.1 (List.mem_of_getLast? e)
      · obtain ⟨a, h1, h2, h3⟩ := Linked.pred_mem h.2 hd.2 n hn (by simpa using fun e' => e e'.symm)
        exact ⟨a, List.mem_cons_of_mem _ h1, h2, by rw [List.getLast?_cons_cons]; exact h3⟩

section
variable {D : Nat → Prop} {nxt prv : Nat → Option Nat} {Q : List Nat} {h t : Nat}

/-- What surrounds the run `Q`. -/
structure Around (D : Nat → Prop) (nxt prv : Nat → Option Nat) (Q : List Nat) (h t : Nat) (p n : Option Nat) : Prop where
  inv : Mutual D nxt prv
  sub : ∀ a ∈ Q, D a
  linked : Linked nxt prv Q
  nodup : Q.Nodup
  head : Q.head? = some h
  last : Q.getLast? = some t
  hp : prv h = p
  hn : nxt t = n
  p_out : ∀ a, p = some a → a ∉ Q

variable {p n : Option Nat}

theorem Around.h_mem (H : Around D nxt prv Q h t p n) : h ∈ Q := List.mem_of_head? H.head
theorem Around.t_mem (H : Around D nxt prv Q h t p n) : t ∈ Q := List.mem_of_getLast? H.last

theorem Around.n_out (H : Around D nxt prv Q h t p n) : ∀ a, n = some a → a ∉ Q := by
  intro a ha hm
  have hD := H.sub _ H.t_mem
  have hn := H.hn
  rw [ha] at hn
  obtain ⟨_, h2⟩ := H.inv.next _ _ hD hn
  by_cases e : a = h
  · subst e
    rw [H.hp] at h2
    exact H.p_out _ h2 H.t_mem
  · obtain ⟨b, h3, h4, h5⟩ := Linked.pred_mem H.linked H.nodup a hm (by rw [H.head]; simpa using fun e' => e e'.symm)
    rw [h2] at h4; obtain rfl := Option.some.inj h4
    exact h5 H.last

/-- Lists inside the run keep their links. -/
theorem Around.inside (H : Around D nxt prv Q h t p n) {l : List Nat} (hl : ∀ a ∈ l, a ∈ Q) (hk : Linked nxt prv l) :
    Linked (cutN nxt t p n) (cutP prv h p n) l := by
  refine Linked.imp_mem ?_ hk
  intro a ha b hb h1 h2
  have ha' := hl a ha
  have hb' := hl b hb
  have e1 : a ≠ t := by
    rintro rfl
    rw [H.hn] at h1
    exact H.n_out b h1 hb'
  have e2 : b ≠ h := by
    rintro rfl
    rw [H.hp] at h2
    exact H.p_out a h2 ha'
  have e3 : p ≠ some a := fun e => H.p_out a e ha'
  have e4 : n ≠ some b := fun e => H.n_out b e hb'
  simp only [cutN, cutP, e1, e2, e3, e4, if_false]
  exact ⟨h1, h2⟩

/-- Lists disjoint from the run keep their links. -/
theorem Around.outside (H : Around D nxt prv Q h t p n) {l : List Nat} (hl : ∀ a ∈ l, a ∉ Q) (hk : Linked nxt prv l) :
    Linked (cutN nxt t p n) (cutP prv h p n) l := by
  refine Linked.imp_mem ?_ hk
  intro a ha b hb h1 h2
  have ha' := hl a ha
  have hb' := hl b hb
  have e1 : a ≠ t := fun e => ha' (e ▸ H.t_mem)
  have e2 : b ≠ h := fun e => hb' (e ▸ H.h_mem)
  have e3 : p ≠ some a := by
    intro e
    have := H.hp
    rw [e] at this
    have := (H.inv.prev _ _ (H.sub _ H.h_mem) this).2
    rw [this] at h1
    exact e2 (Option.some.inj h1).symm
  have e4 : n ≠ some b := by
    intro e
    have := H.hn
    rw [e] at this
    have := (H.inv.next _ _ (H.sub _ H.t_mem) this).2
    rw [this] at h2
    exact e1 (Option.some.inj h2).symm
  simp only [cutN, cutP, e1, e2, e3, e4, if_false]
  exact ⟨h1, h2⟩

theorem filter_infix {A C : List Nat} (hd : (A ++ Q ++ C).Nodup) : (A ++ Q ++ C).filter (· ∉ Q) = A ++ C := by
  rw [List.nodup_append, List.nodup_append] at hd
  obtain ⟨⟨h1, h2, h3⟩, h4, h5⟩ := hd
  rw [List.filter_append, List.filter_append]
  have e1 : A.filter (· ∉ Q) = A := by
    rw [List.filter_eq_self]; intro a ha
    simpa using fun hq => h3 a ha a hq rfl
  have e2 : Q.filter (· ∉ Q) = [] := by
    rw [List.filter_eq_nil_iff]; intro a ha; simpa using ha
  have e3 : C.filter (· ∉ Q) = C := by
    rw [List.filter_eq_self]; intro a ha
    simpa using fun hq => h5 a (by simp [hq]) a ha rfl
  rw [e1, e2, e3]; simp

/-- A list around the run is linked again without it. -/
theorem Around.across (H : Around D nxt prv Q h t p n) {l : List Nat} (hl : Q <:+: l) (hd : l.Nodup)
    (hk : Linked nxt prv l) : Linked (cutN nxt t p n) (cutP prv h p n) (l.filter (· ∉ Q)) := by
  obtain ⟨A, C, rfl⟩ := hl
  rw [filter_infix hd]
  rw [List.nodup_append, List.nodup_append] at hd
  obtain ⟨⟨h1, h2, h3⟩, h4, h5⟩ := hd
  have kA : Linked (cutN nxt t p n) (cutP prv h p n) A :=
    H.outside (fun a ha hq => h3 a ha a hq rfl) hk.left.left
  have kC : Linked (cutN nxt t p n) (cutP prv h p n) C :=
    H.outside (fun a ha hq => h5 a (by simp [hq]) a ha rfl) hk.right
  cases hA : A.getLast? with
  | none => rw [List.getLast?_eq_none_iff] at hA; subst hA; simpa using kC
  | some a =>
    cases hC : C.head? with
    | none => rw [List.head?_eq_none_iff] at hC; subst hC; simpa using kA
    | some c =>
      have haA := List.mem_of_getLast? hA
      have hcC := List.mem_of_head? hC
      have j1 := hk.left.between hA H.head
      have hlast : (A ++ Q).getLast? = some t := by
        rw [List.getLast?_append, H.last]; rfl
      have j2 := hk.between hlast hC
      have e1 : a ≠ t := fun e => h3 a haA t H.t_mem e
      have e2 : c ≠ h := fun e => h5 h (by simp [H.h_mem]) c hcC e.symm
      have e3 : p = some a := by rw [← H.hp]; exact j1.2
      have e4 : n = some c := by rw [← H.hn]; exact j2.1
      refine Linked.append kA kC hA hC ?_ ?_
      · simp [cutN, e1, e3, e4]
      · simp [cutP, e2, e3, e4]

theorem Around.mutual (H : Around D nxt prv Q h t p n) : Mutual D (cutN nxt t p n) (cutP prv h p n) := by
  have hh := H.sub _ H.h_mem
  have ht := H.sub _ H.t_mem
  constructor
  · intro a b ha hab
    unfold cutN at hab
    by_cases e1 : a = t
    · simp [e1] at hab
    rw [if_neg e1] at hab
    by_cases e2 : p = some a
    · rw [if_pos e2] at hab
      have := H.hn; rw [hab] at this
      obtain ⟨k1, k2⟩ := H.inv.next _ _ ht this
      have e3 : b ≠ h := fun e => H.n_out b hab (e ▸ H.h_mem)
      exact ⟨k1, by simp [cutP, e3, hab, e2]⟩
    · rw [if_neg e2] at hab
      obtain ⟨k1, k2⟩ := H.inv.next _ _ ha hab
      refine ⟨k1, ?_⟩
      have e3 : b ≠ h := by rintro rfl; rw [H.hp] at k2; exact e2 k2
      have e4 : n ≠ some b := by
        intro e
        have := H.hn; rw [e] at this
        have := (H.inv.next _ _ ht this).2
        rw [k2] at this; exact e1 (Option.some.inj this)
      simp [cutP, e3, e4, k2]
  · intro a b hb hab
    unfold cutP at hab
    by_cases e1 : b = h
    · simp [e1] at hab
    rw [if_neg e1] at hab
    by_cases e2 : n = some b
    · rw [if_pos e2] at hab
      have := H.hp; rw [hab] at this
      obtain ⟨k1, k2⟩ := H.inv.prev _ _ hh this
      have e3 : a ≠ t := fun e => H.p_out a hab (e ▸ H.t_mem)
      exact ⟨k1, by simp [cutN, e3, hab, e2]⟩
    · rw [if_neg e2] at hab
      obtain ⟨k1, k2⟩ := H.inv.prev _ _ hb hab
      refine ⟨k1, ?_⟩
      have e3 : a ≠ t := by rintro rfl; rw [H.hn] at k2; exact e2 k2
      have e4 : p ≠ some a := by
        intro e
        have := H.hp; rw [e] at this
        have := (H.inv.prev _ _ hh this).2
        rw [k2] at this; exact e1 (Option.some.inj this)
      simp [cutN, e3, e4, k2]

/-- The last node of a list without the run. -/
theorem last_filter {l : List Nat} (hl : Q <:+: l) (hd : l.Nodup) {u : Nat} (hu : l.getLast? = some u) (hq : u ∉ Q) :
    (l.filter (· ∉ Q)).getLast? = some u := by
  obtain ⟨A, C, rfl⟩ := hl
  rw [filter_infix hd]
  cases C using List.reverseRecOn with
  | nil =>
    simp only [List.append_nil] at hu ⊢
    cases hQ : Q.getLast? with
    | none => rw [List.getLast?_eq_none_iff] at hQ; subst hQ; simpa using hu
    | some v =>
      rw [List.getLast?_append, hQ] at hu
      simp at hu; subst hu
      exact absurd (List.mem_of_getLast? hQ) hq
  | append_singleton C c =>
    simp only [← List.append_assoc] at hu ⊢
    rw [List.getLast?_concat] at hu ⊢
    exact hu

/-- If the run ends the list, what precedes the run ends it afterwards. -/
theorem Around.last_cut (H : Around D nxt prv Q h t p n) {l : List Nat} (hl : Q <:+: l) (hd : l.Nodup)
    (hk : Linked nxt prv l) (hu : l.getLast? = some t) (hh : l.head? ≠ some h) :
    ∃ a, p = some a ∧ a ∈ l ∧ (l.filter (· ∉ Q)).getLast? = some a := by
  obtain ⟨A, C, rfl⟩ := hl
  rw [filter_infix hd]
  have hd' := hd
  rw [List.nodup_append] at hd'
  cases C using List.reverseRecOn with
  | append_singleton C c =>
    simp only [← List.append_assoc] at hu
    rw [List.getLast?_concat] at hu
    obtain rfl := Option.some.inj hu
    exact absurd rfl (hd'.2.2 c (by simp [H.t_mem]) c (by simp))
  | nil =>
    simp only [List.append_nil] at hk hh ⊢
    cases hA : A.getLast? with
    | none =>
      rw [List.getLast?_eq_none_iff] at hA; subst hA
      simp only [List.nil_append] at hh
      exact absurd H.head hh
    | some a =>
      have := hk.between hA H.head
      exact ⟨a, by rw [← H.hp]; exact this.2, by simp [List.mem_of_getLast? hA], rfl⟩

/-- In nested runs the last node of the outermost, if it lies in the innermost, ends all of them. -/
theorem last_nested {l : List Nat} (hl : Q <:+: l) (hd : l.Nodup) {u : Nat} (hu : l.getLast? = some u) (hq : u ∈ Q) :
    Q.getLast? = some u := by
  obtain ⟨A, C, rfl⟩ := hl
  cases C using List.reverseRecOn with
  | nil =>
    simp only [List.append_nil] at hu
    cases hQ : Q.getLast? with
    | none => rw [List.getLast?_eq_none_iff] at hQ; subst hQ; simp at hq
    | some v => rw [List.getLast?_append, hQ] at hu; simpa using hu
  | append_singleton C c =>
    rw [List.nodup_append] at hd
    simp only [← List.append_assoc] at hu
    rw [List.getLast?_concat] at hu
    obtain rfl := Option.some.inj hu
    exact absurd rfl (hd.2.2 c (by simp [hq]) c (by simp))

end

/-! ### `unlink` -/

theorem unlink_spec (pts : Nat → Point) (h t : Nat) :
    let pts' := update (unlink pts h t) h { unlink pts h t h with prev := none }
    let pts'' := update pts' t { pts' t with next := none }
    nx pts'' = cutN (nx pts) t (pv pts h) (nx pts t) ∧ pv pts'' = cutP (pv pts) h (pv pts h) (nx pts t) := by
  have hN : ∀ (pts : Nat → Point) (c v : Option Nat) (a : Nat), (setNext pts c v a).next =
      (if c = some a then v else (pts a).next) ∧ (setNext pts c v a).prev = (pts a).prev := by
    intro pts c v a
    cases c with
    | none => simp [setNext]
    | some c =>
      by_cases e : a = c
      · subst e; simp [setNext]
      · simp [setNext, Function.update_of_ne e, Ne.symm e]
  have hP : ∀ (pts : Nat → Point) (c v : Option Nat) (a : Nat), (setPrev pts c v a).prev =
      (if c = some a then v else (pts a).prev) ∧ (setPrev pts c v a).next = (pts a).next := by
    intro pts c v a
    cases c with
    | none => simp [setPrev]
    | some c =>
      by_cases e : a = c
      · subst e; simp [setPrev]
      · simp [setPrev, Function.update_of_ne e, Ne.symm e]
  have key : (∀ a, ((unlink pts h t) a).next = if (pts h).prev = some a then (pts t).next else (pts a).next) ∧
      (∀ b, ((unlink pts h t) b).prev = if (pts t).next = some b then (pts h).prev else (pts b).prev) := by
    unfold unlink
    refine ⟨fun a => ?_, fun b => ?_⟩
    · rw [(hP _ _ _ _).2, (hN _ _ _ _).1]
    · rw [(hP _ _ _ _).1, (hN _ _ _ _).1, (hN _ _ _ _).2, (hN _ _ _ _).2]
      congr 2
      split <;> rfl
  intro pts' pts''
  constructor
  · funext a
    simp only [nx, cutN, pts'']
    by_cases e : a = t
    · subst e; simp
    · rw [Function.update_of_ne e, if_neg e]
      simp only [pts']
      by_cases e' : a = h
      · subst e'; simp only [Function.update_self]; exact key.1 a
      · rw [Function.update_of_ne e']; exact key.1 a
  · funext b
    simp only [pv, cutP, pts'']
    have : (update pts' t { pts' t with next := none } b).prev = (pts' b).prev := by
      by_cases e : b = t
      · subst e; simp
      · rw [Function.update_of_ne e]
    rw [this]
    simp only [pts']
    by_cases e : b = h
    · subst e; simp
    · rw [Function.update_of_ne e, if_neg e]; exact key.2 b

end Verif.V1
