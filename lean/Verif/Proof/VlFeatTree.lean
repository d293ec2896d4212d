import Verif.Proof.VlFeatRun
import Verif.Proof.OriginalTree

/-!
# The VLFeat detector: the extremal regions form the component tree
-/

namespace Verif.VlFeat

open Verif.Spec
open Relation (ReflTransGen)
open scoped Classical

variable {nel : Nat} {nb : Nat → List Nat} {g : Nat → Nat} {d : Nat → Nat} {s : FS} {e : ES}

/-- The pixel stands for an extremal region. -/
def Ex (g : Nat → Nat) (s : FS) (x : Nat) : Prop := ∃ y, s.parent x = some y ∧ (g x < g y ∨ x = y)

/-- The forest after all pixels. -/
structure Done (nel : Nat) (nb : Nat → List Nat) (g : Nat → Nat) (d : Nat → Nat) (s : FS) : Prop where
  par : ∀ x < nel, ∃ y < nel, s.parent x = some y ∧ g x ≤ g y ∧ (y ≠ x → d x < d y)
  depth : ∀ x < nel, d x ≤ nel
  closed : ∀ x < nel, Ex g s x → ∀ p < nel, (Anc s p x ↔ LConn (adj nel nb) g (g x) x p)
  area : ∀ x < nel, Ex g s x → s.area x = ((Finset.range nel).filter fun p => LConn (adj nel nb) g (g x) x p).card
  ner : ((Finset.range nel).filter (Ex g s)).card = s.ner + 1

theorem Full.done (h : Full nel nb g (Finset.range nel) s) (h0 : 0 < nel) (hcon : ∀ x < nel, ∀ y < nel, ReflTransGen (adj nel nb) x y) :
    ∃ d, Done nel nb g d s := by
  obtain ⟨A, rt, d, hI, hA⟩ := h.inv
  have hm : ∀ {x}, x < nel → x ∈ Finset.range nel := Finset.mem_range.2
  have hall : ∀ x < nel, ∀ y < nel, rt x = rt y := by
    intro x hx y hy
    refine (hI.conn x (hm hx) y (hm hy)).2 (rtg_mono (fun a b h => ?_) (hcon x hx y hy))
    exact hA a (hm h.1) b (hm h.2.1) h
  have hroot : ∀ x < nel, s.parent x = some x → rt x = x := by
    intro x hx e
    obtain ⟨y, _, h1, _, h3, -⟩ := hI.par x (hm hx)
    rw [h1] at e; injection e with e
    exact h3.1 e
  have hrl : rt 0 < nel := Finset.mem_range.1 (hI.rt_mem (hm h0))
  have hrr : rt (rt 0) = rt 0 := hI.rt_rt (hm h0)
  have hrp : s.parent (rt 0) = some (rt 0) := hI.root_par (hm hrl) hrr
  have hconn : ∀ p < nel, LConn (adj nel nb) g (g (rt 0)) (rt 0) p := by
    intro p hp
    refine rtg_mono (fun a b h => ⟨h, ?_, ?_⟩) (hcon _ hrl p hp)
    · rw [hall 0 h0 a h.1]; exact hI.gray_le (hm h.1)
    · rw [hall 0 h0 b h.2.1]; exact hI.gray_le (hm h.2.1)
  refine ⟨d, ?_, ?_, ?_, ?_, ?_⟩
  · intro x hx
    obtain ⟨y, hy, h1, h2, h3, h4, h5⟩ := hI.par x (hm hx)
    exact ⟨y, Finset.mem_range.1 hy, h1, h4, h5⟩
  · intro x hx
    have := hI.depth x (hm hx)
    have := hI.joins_lt (hm hx)
    omega
  · rintro x hx ⟨y, h1, h2⟩ p hp
    by_cases hlt : g x < g y
    · exact (hI.ext x (hm hx) y h1 hlt).2 p (hm hp)
    · obtain rfl := h2.resolve_left hlt
      have e : x = rt 0 := by rw [← hroot x hx h1]; exact hall x hx 0 h0
      subst e
      refine ⟨fun _ => hconn p hp, fun _ => ?_⟩
      rw [hall 0 h0 p hp]
      exact hI.anc_rt (hm hp)
  · rintro x hx ⟨y, h1, h2⟩
    by_cases hlt : g x < g y
    · exact (hI.ext x (hm hx) y h1 hlt).1
    · obtain rfl := h2.resolve_left hlt
      have hr := hroot x hx h1
      have e : x = rt 0 := by rw [← hr]; exact hall x hx 0 h0
      rw [hI.area x (hm hx) hr]
      congr 1
      refine Finset.filter_congr fun p hp => ?_
      have hp := Finset.mem_range.1 hp
      constructor
      · intro _; rw [e]; exact hconn p hp
      · intro _; rw [e]; exact hall p hp 0 h0
  · have : (Finset.range nel).filter (Ex g s) = insert (rt 0) ((Finset.range nel).filter fun x => ∃ y, s.parent x = some y ∧ g x < g y) := by
      ext x
      rw [Finset.mem_insert, Finset.mem_filter, Finset.mem_filter]
      constructor
      · rintro ⟨h1, y, h2, h3⟩
        rcases h3 with h3 | rfl
        · exact .inr ⟨h1, y, h2, h3⟩
        · left
          rw [← hroot x (Finset.mem_range.1 h1) h2]
          exact hall x (Finset.mem_range.1 h1) 0 h0
      · rintro (rfl | ⟨h1, y, h2, h3⟩)
        · exact ⟨hm hrl, _, hrp, .inr rfl⟩
        · exact ⟨h1, y, h2, .inl h3⟩
    rw [this, Finset.card_insert_of_notMem, ← hI.ner]
    rw [Finset.mem_filter]
    rintro ⟨_, y, h2, h3⟩
    rw [hrp] at h2
    injection h2 with h2
    subst h2; omega

/-! ### Paths -/

theorem Done.anc (h : Done nel nb g d s) {p x : Nat} (hp : p < nel) (ha : Anc s p x) : x < nel ∧ g p ≤ g x := by
  induction ha with
  | refl => exact ⟨hp, le_refl _⟩
  | tail _ e ih =>
    obtain ⟨y, hy, h1, h2, -⟩ := h.par _ ih.1
    rw [h1] at e; injection e with e
    subst e
    exact ⟨hy, ih.2.trans h2⟩

theorem anc_total {p x y : Nat} (h1 : Anc s p x) (h2 : Anc s p y) : Anc s x y ∨ Anc s y x :=
  Relation.ReflTransGen.total_of_right_unique (fun a b c h h' => by rw [h] at h'; injection h') h1 h2

/-- Above an extremal pixel the values are larger. -/
theorem Done.above (h : Done nel nb g d s) {x z : Nat} (hx : x < nel) (hE : Ex g s x) (ha : Anc s x z) (hne : z ≠ x) : g x < g z := by
  obtain ⟨y, h1, h2⟩ := hE
  rcases Relation.ReflTransGen.cases_head ha with e | ⟨y', h3, h4⟩
  · exact absurd e.symm hne
  · rw [h1] at h3; injection h3 with h3
    subst h3
    rcases h2 with h2 | rfl
    · have hy : y < nel := by
        obtain ⟨y', hy', h5, -⟩ := h.par x hx
        rw [h1] at h5; injection h5 with h5
        rw [h5]; exact hy'
      exact lt_of_lt_of_le h2 (h.anc hy h4).2
    · have : ∀ z, Anc s x z → z = x := by
        intro z h'
        induction h' with
        | refl => rfl
        | tail _ e ih => rw [ih, h1] at e; injection e with e; exact e.symm
      exact absurd (this z ha) hne

/-- `z` stands for the extremal region to which the pixel belongs. -/
structure Lab (g : Nat → Nat) (s : FS) (p z : Nat) : Prop where
  anc : Anc s p z
  ex : Ex g s z
  gray : g z = g p

theorem Done.lab_unique (h : Done nel nb g d s) {p z z' : Nat} (hp : p < nel) (h1 : Lab g s p z) (h2 : Lab g s p z') : z = z' := by
  by_contra hne
  have e := h1.gray.trans h2.gray.symm
  rcases anc_total h1.anc h2.anc with h3 | h3
  · have := h.above (h.anc hp h1.anc).1 h1.ex h3 (Ne.symm hne)
    omega
  · have := h.above (h.anc hp h2.anc).1 h2.ex h3 hne
    omega

/-- An extremal pixel above is above the region of the pixel. -/
theorem Done.lab_below (h : Done nel nb g d s) {p z x : Nat} (hp : p < nel) (h1 : Lab g s p z) (hE : Ex g s x) (hx : Anc s p x) : Anc s z x := by
  rcases anc_total h1.anc hx with h3 | h3
  · exact h3
  · by_cases e : z = x
    · rw [e]; exact .refl
    · have h4 := h.above (h.anc hp hx).1 hE h3 e
      have h5 := (h.anc hp hx).2
      have := h1.gray
      omega

theorem Done.not_ex (h : Done nel nb g d s) {x y : Nat} (hx : x < nel) (h1 : s.parent x = some y) (hn : ¬ Ex g s x) : y ≠ x ∧ g y = g x ∧ d x < d y := by
  obtain ⟨y', hy', h2, h3, h4⟩ := h.par x hx
  rw [h1] at h2; injection h2 with h2
  subst h2
  have hne : y ≠ x := fun e => hn ⟨y, h1, .inr e.symm⟩
  refine ⟨hne, ?_, h4 hne⟩
  by_contra hg
  exact hn ⟨y, h1, .inl (by omega)⟩

/-! ### Extraction -/

/-- After the pixels in `pre` have been looked at. -/
structure ExtI (g : Nat → Nat) (s : FS) (pre : List Nat) (e : ES) : Prop where
  idx : ∀ j < e.ner, e.index j ∈ pre ∧ Ex g s (e.index j) ∧ e.erOf (e.index j) = some j ∧ e.value j = g (e.index j) ∧
    e.area j = s.area (e.index j)
  yes : ∀ x ∈ pre, Ex g s x → ∃ j < e.ner, e.erOf x = some j ∧ e.index j = x
  no : ∀ x ∈ pre, ¬ Ex g s x → e.erOf x = none
  mono : ∀ j k, j < k → k < e.ner → e.value j ≤ e.value k

theorem extr_spec {cap : Nat} : ∀ (l pre : List Nat) (e : ES), (∀ x ∈ l, x < nel) → Done nel nb g d s → (pre ++ l).Nodup →
    (pre ++ l).Pairwise (fun a b => g a ≤ g b) → ExtI g s pre e → e.ner + (l.filter fun x => decide (Ex g s x)).length ≤ cap →
    ∃ e', extrLoop cap g s l e = some e' ∧ ExtI g s (pre ++ l) e' ∧ e'.ner = e.ner + (l.filter fun x => decide (Ex g s x)).length := by
  intro l
  induction l with
  | nil => intro pre e _ _ _ _ h _; exact ⟨e, rfl, by rw [List.append_nil]; exact h, by simp⟩
  | cons x l ih =>
    intro pre e hl hD hnd hs h hcap
    obtain ⟨p, hpl, hp, hle, -⟩ := hD.par x (hl x List.mem_cons_self)
    have happ : pre ++ x :: l = (pre ++ [x]) ++ l := by simp
    rw [happ] at hnd hs
    have hx : x ∉ pre := by
      have := (List.nodup_append.1 (List.nodup_append.1 hnd).1).2.2
      intro hx
      exact this x hx x (by simp) rfl
    have hs' : ∀ y ∈ pre, g y ≤ g x := by
      intro y hy
      exact (List.pairwise_append.1 (List.pairwise_append.1 hs).1).2.2 y hy x (by simp)
    have hEx : Ex g s x ↔ (g x < g p ∨ x = p) := by
      constructor
      · rintro ⟨y, h1, h2⟩
        rw [hp] at h1; injection h1 with h1
        rw [h1]; exact h2
      · exact fun h => ⟨p, hp, h⟩
    rw [happ]
    rw [extrLoop, hp]
    dsimp only
    by_cases hE : Ex g s x
    · have hf : (x :: l).filter (fun x => decide (Ex g s x)) = x :: l.filter fun x => decide (Ex g s x) := by
        rw [List.filter_cons, if_pos (decide_eq_true hE)]
      rw [hf, List.length_cons] at hcap ⊢
      rw [if_pos (hEx.1 hE), if_pos (by omega)]
      obtain ⟨e', k1, k2, k3⟩ := ih (pre ++ [x])
        { ner := e.ner + 1, index := upd e.index e.ner x, value := upd e.value e.ner (g x), area := upd e.area e.ner (s.area x),
          parent := upd e.parent e.ner e.ner, erOf := upd e.erOf x (some e.ner) } (fun y hy => hl y (List.mem_cons_of_mem _ hy)) hD hnd hs
        (by
          refine ⟨?_, ?_, ?_, ?_⟩
          · intro j hj
            dsimp only at hj ⊢
            by_cases ej : j = e.ner
            · subst ej
              simp only [upd_same]
              exact ⟨by simp, hE, trivial, trivial, trivial⟩
            · rw [upd_ne _ _ ej, upd_ne _ _ ej, upd_ne _ _ ej]
              obtain ⟨a1, a2, a3, a4, a5⟩ := h.idx j (by omega)
              exact ⟨List.mem_append_left _ a1, a2, by rw [upd_ne _ _ (fun e => hx (by rw [← e]; exact a1))]; exact a3, a4, a5⟩
          · intro y hy hEy
            dsimp only
            by_cases ey : y = x
            · subst ey; exact ⟨e.ner, by omega, upd_same _ _ _, upd_same _ _ _⟩
            · have hy : y ∈ pre := by simpa [ey] using hy
              obtain ⟨j, a1, a2, a3⟩ := h.yes y hy hEy
              exact ⟨j, by omega, by rw [upd_ne _ _ ey]; exact a2, by rw [upd_ne _ _ (by omega)]; exact a3⟩
          · intro y hy hEy
            dsimp only
            have ey : y ≠ x := fun e => hEy (by rw [e]; exact hE)
            have hy : y ∈ pre := by simpa [ey] using hy
            rw [upd_ne _ _ ey]; exact h.no y hy hEy
          · intro j k hjk hk
            dsimp only at hk ⊢
            rw [upd_ne _ _ (by omega)]
            by_cases ek : k = e.ner
            · subst ek
              rw [upd_same]
              obtain ⟨a1, _, _, a4, _⟩ := h.idx j hjk
              rw [a4]; exact hs' _ a1
            · rw [upd_ne _ _ ek]; exact h.mono j k hjk (by omega)) (by dsimp only; omega)
      exact ⟨e', k1, k2, by rw [k3]; dsimp only; omega⟩
    · have hf : (x :: l).filter (fun x => decide (Ex g s x)) = l.filter fun x => decide (Ex g s x) := by
        rw [List.filter_cons, if_neg (by simpa using hE)]
      rw [hf] at hcap ⊢
      rw [if_neg (fun h => hE (hEx.2 h))]
      obtain ⟨e', k1, k2, k3⟩ := ih (pre ++ [x]) { e with erOf := upd e.erOf x none } (fun y hy => hl y (List.mem_cons_of_mem _ hy)) hD hnd hs
        (by
          refine ⟨?_, ?_, ?_, h.mono⟩
          · intro j hj
            obtain ⟨a1, a2, a3, a4, a5⟩ := h.idx j hj
            exact ⟨List.mem_append_left _ a1, a2, by
              show upd e.erOf x none (e.index j) = _
              rw [upd_ne _ _ (fun e => hx (by rw [← e]; exact a1))]; exact a3, a4, a5⟩
          · intro y hy hEy
            dsimp only
            have ey : y ≠ x := fun e => hE (by rw [← e]; exact hEy)
            have hy : y ∈ pre := by simpa [ey] using hy
            obtain ⟨j, a1, a2, a3⟩ := h.yes y hy hEy
            exact ⟨j, a1, by rw [upd_ne _ _ ey]; exact a2, a3⟩
          · intro y hy hEy
            dsimp only
            by_cases ey : y = x
            · rw [ey, upd_same]
            · have hy : y ∈ pre := by simpa [ey] using hy
              rw [upd_ne _ _ ey]; exact h.no y hy hEy) hcap
      exact ⟨e', k1, k2, k3⟩

/-! ### Linking -/

/-- All extremal regions are stored. -/
structure Stored (nel : Nat) (g : Nat → Nat) (s : FS) (e : ES) : Prop where
  idx : ∀ j < e.ner, e.index j < nel ∧ Ex g s (e.index j) ∧ e.erOf (e.index j) = some j ∧ e.value j = g (e.index j) ∧
    e.area j = s.area (e.index j)
  yes : ∀ x < nel, Ex g s x → ∃ j < e.ner, e.erOf x = some j ∧ e.index j = x
  no : ∀ x < nel, ¬ Ex g s x → e.erOf x = none
  mono : ∀ j k, j < k → k < e.ner → e.value j ≤ e.value k

/-- The search from a pixel ends at the region of the parent. -/
theorem up_spec (hD : Done nel nb g d s) (hS : Stored nel g s e) : ∀ fuel x y, x < nel → s.parent x = some y → nel - d y < fuel →
    ∃ j < e.ner, upLoop s.parent e.erOf fuel x = some j ∧ Lab g s y (e.index j) := by
  intro fuel
  induction fuel with
  | zero => intro x y _ _ h; omega
  | succ fuel ih =>
    intro x y hx hxy hf
    have hy : y < nel := by
      obtain ⟨y', hy', h5, -⟩ := hD.par x hx
      rw [hxy] at h5; injection h5 with h5
      rw [h5]; exact hy'
    rw [upLoop, hxy]
    dsimp only
    by_cases hE : Ex g s y
    · obtain ⟨j, h1, h2, h3⟩ := hS.yes y hy hE
      rw [h2]
      exact ⟨j, h1, rfl, by rw [h3]; exact ⟨.refl, hE, rfl⟩⟩
    · rw [hS.no y hy hE]
      dsimp only
      obtain ⟨z, hz, h1, -⟩ := hD.par y hy
      obtain ⟨h2, h3, h4⟩ := hD.not_ex hy h1 hE
      have := hD.depth z hz
      obtain ⟨j, k1, k2, k3⟩ := ih y z hy h1 (by omega)
      exact ⟨j, k1, k2, ⟨.head h1 k3.anc, k3.ex, k3.gray.trans h3⟩⟩

/-- The parents of the regions. -/
def Linked (g : Nat → Nat) (s : FS) (e : ES) (par : Nat → Nat) (k : Nat) : Prop :=
  ∀ j < k, par j < e.ner ∧ ∃ y, s.parent (e.index j) = some y ∧ Lab g s y (e.index (par j))

theorem link_spec (hD : Done nel nb g d s) (hS : Stored nel g s e) : ∀ k ≤ e.ner, ∃ par, linkLoop nel s e k = some par ∧ Linked g s e par k := by
  intro k
  induction k with
  | zero => intro _; exact ⟨e.parent, rfl, fun j hj => by omega⟩
  | succ k ih =>
    intro hk
    obtain ⟨par, h1, h2⟩ := ih (by omega)
    obtain ⟨y, hy, h3, -⟩ := hD.par _ (hS.idx k (by omega)).1
    obtain ⟨q, h4, h5, h6⟩ := up_spec hD hS (nel + 1) _ y (hS.idx k (by omega)).1 h3 (by omega)
    refine ⟨upd par k q, by rw [linkLoop, h1, Option.bind_some, h5, Option.map_some], ?_⟩
    intro j hj
    by_cases e' : j = k
    · subst e'; rw [upd_same]; exact ⟨h4, y, h3, h6⟩
    · rw [upd_ne _ _ e']; exact h2 j (by omega)

/-! ### The tree -/

/-- The regions as a labelled tree. -/
def treeE {α : Type} (e : ES) (lab : α → Nat) : RegionTree α Nat where
  isReg := fun r => r < e.ner
  lab := lab
  gray := e.value
  parent := fun r => if e.parent r = r then none else some (e.parent r)
  size := e.area

/-- The region of a pixel. -/
noncomputable def labOf (g : Nat → Nat) (s : FS) (e : ES) (p : Nat) : Nat :=
  if h : ∃ j < e.ner, Lab g s p (e.index j) then h.choose else 0

theorem Done.lab_ex (hD : Done nel nb g d s) (hS : Stored nel g s e) {p : Nat} (hp : p < nel) : ∃ j < e.ner, Lab g s p (e.index j) := by
  by_cases hE : Ex g s p
  · obtain ⟨j, h1, _, h3⟩ := hS.yes p hp hE
    exact ⟨j, h1, by rw [h3]; exact ⟨.refl, hE, rfl⟩⟩
  · obtain ⟨y, hy, h3, -⟩ := hD.par p hp
    obtain ⟨q, h4, _, h6⟩ := up_spec hD hS (nel + 1) p y hp h3 (by omega)
    have := (hD.not_ex hp h3 hE).2.1
    exact ⟨q, h4, ⟨.head h3 h6.anc, h6.ex, h6.gray.trans this⟩⟩

theorem Stored.index_inj (hS : Stored nel g s e) {j k : Nat} (hj : j < e.ner) (hk : k < e.ner) (h : e.index j = e.index k) : j = k := by
  have h1 := (hS.idx j hj).2.2.1
  have h2 := (hS.idx k hk).2.2.1
  rw [h, h2] at h1
  injection h1 with h1
  exact h1.symm

theorem labOf_spec (hD : Done nel nb g d s) (hS : Stored nel g s e) {p : Nat} (hp : p < nel) : labOf g s e p < e.ner ∧ Lab g s p (e.index (labOf g s e p)) := by
  have h := hD.lab_ex hS hp
  unfold labOf
  rw [dif_pos h]
  exact h.choose_spec

theorem labOf_eq (hD : Done nel nb g d s) (hS : Stored nel g s e) {p j : Nat} (hp : p < nel) (hj : j < e.ner) (h : Lab g s p (e.index j)) :
    labOf g s e p = j := by
  obtain ⟨h1, h2⟩ := labOf_spec hD hS hp
  exact hS.index_inj h1 hj (hD.lab_unique hp h2 h)

theorem linked_self (hD : Done nel nb g d s) (hS : Stored nel g s e) (hL : Linked g s e e.parent e.ner) {j : Nat} (hj : j < e.ner) {y : Nat}
    (hy : s.parent (e.index j) = some y) : (e.parent j = j ↔ y = e.index j) ∧ (y ≠ e.index j → e.value j < e.value (e.parent j)) := by
  obtain ⟨h1, y', h2, h3⟩ := hL j hj
  rw [hy] at h2; injection h2 with h2
  subst h2
  obtain ⟨a1, a2, a3, a4, a5⟩ := hS.idx j hj
  obtain ⟨b1, b2, b3, b4, b5⟩ := hS.idx _ h1
  have hlt : y ≠ e.index j → e.value j < e.value (e.parent j) := by
    intro hne
    obtain ⟨z, hz, hz'⟩ := a2
    rw [hy] at hz; injection hz with hz
    subst hz
    have := hz'.resolve_right (fun e => hne e.symm)
    rw [a4, b4, h3.gray]; exact this
  refine ⟨⟨fun he => ?_, fun he => ?_⟩, hlt⟩
  · by_contra hne
    have := hlt hne
    rw [he] at this
    omega
  · rw [he] at h3
    have h5 : Lab g s (e.index j) (e.index j) := ⟨.refl, a2, rfl⟩
    exact hS.index_inj h1 hj (hD.lab_unique a1 h3 h5)

theorem under_iff (hD : Done nel nb g d s) (hS : Stored nel g s e) (hL : Linked g s e e.parent e.ner) {j : Nat} (hj : j < e.ner) :
    ∀ k p, p < nel → nel - d p ≤ k → ((treeE e (labOf g s e)).Under j p ↔ Anc s p (e.index j)) := by
  have hpar : ∀ a b, a < e.ner → (treeE e (labOf g s e)).parent a = some b → b < e.ner ∧ ∃ y, s.parent (e.index a) = some y ∧ y ≠ e.index a ∧
      Lab g s y (e.index b) := by
    intro a b ha hab
    obtain ⟨h1, y, h2, h3⟩ := hL a ha
    unfold treeE at hab
    dsimp only at hab
    by_cases he : e.parent a = a
    · rw [if_pos he] at hab; exact absurd hab (by simp)
    · rw [if_neg he] at hab
      injection hab with hab
      subst hab
      exact ⟨h1, y, h2, fun e' => he ((linked_self hD hS hL ha h2).1.2 e'), h3⟩
  have hdown : ∀ a b, a < e.ner → ReflTransGen (fun a b => (treeE e (labOf g s e)).parent a = some b) a b → b < e.ner ∧ Anc s (e.index a) (e.index b) := by
    intro a b ha h
    induction h with
    | refl => exact ⟨ha, .refl⟩
    | tail _ h1 ih =>
      obtain ⟨k1, y, k2, _, k4⟩ := hpar _ _ ih.1 h1
      exact ⟨k1, ih.2.trans (.head k2 k4.anc)⟩
  intro k
  induction k with
  | zero =>
    intro p hp hk
    obtain ⟨l1, l2⟩ := labOf_spec hD hS hp
    refine ⟨fun h => l2.anc.trans (hdown _ _ l1 h).2, fun h => ?_⟩
    -- no parent can be deeper
    obtain ⟨y, hy, h1, _, h3⟩ := hD.par p hp
    have hyp : y = p := by
      by_contra hne
      have := h3 hne
      have := hD.depth y hy
      omega
    subst hyp
    have hfix : ∀ z, Anc s y z → z = y := by
      intro z h'
      induction h' with
      | refl => rfl
      | tail _ e ih => rw [ih, h1] at e; injection e with e; exact e.symm
    have e1 := hfix _ l2.anc
    have e2 := hfix _ h
    have : labOf g s e y = j := hS.index_inj l1 hj (e1.trans e2.symm)
    unfold RegionTree.Under
    show ReflTransGen _ (labOf g s e y) j
    rw [this]
  | succ k ih =>
    intro p hp hk
    obtain ⟨l1, l2⟩ := labOf_spec hD hS hp
    refine ⟨fun h => l2.anc.trans (hdown _ _ l1 h).2, fun h => ?_⟩
    unfold RegionTree.Under
    show ReflTransGen _ (labOf g s e p) j
    by_cases hz : e.index (labOf g s e p) = e.index j
    · rw [hS.index_inj l1 hj hz]
    · obtain ⟨y, hy, h1, _, h3⟩ := hD.par p hp
      by_cases hE : Ex g s p
      · -- the pixel itself is extremal
        have hlp : e.index (labOf g s e p) = p := hD.lab_unique hp l2 ⟨.refl, hE, rfl⟩
        have hpj : p ≠ e.index j := by rw [← hlp]; exact hz
        have hyp : y ≠ p := by
          rintro rfl
          have hfix : ∀ z, Anc s y z → z = y := by
            intro z h'
            induction h' with
            | refl => rfl
            | tail _ e ih => rw [ih, h1] at e; injection e with e; exact e.symm
          exact hpj (hfix _ h).symm
        have hd := h3 hyp
        have hyj : Anc s y (e.index j) := by
          rcases Relation.ReflTransGen.cases_head h with e' | ⟨y', a1, a2⟩
          · exact absurd e' hpj
          · rw [h1] at a1; injection a1 with a1
            rw [a1]; exact a2
        have := hD.depth y hy
        have hu := (ih y hy (by omega)).2 hyj
        refine .head ?_ hu
        show (if e.parent (labOf g s e p) = labOf g s e p then none else some (e.parent (labOf g s e p))) = some (labOf g s e y)
        have hpl : s.parent (e.index (labOf g s e p)) = some y := by rw [hlp]; exact h1
        rw [if_neg (fun e' => hyp (by rw [(linked_self hD hS hL l1 hpl).1.1 e', hlp]))]
        congr 1
        obtain ⟨c1, y', c2, c3⟩ := hL _ l1
        rw [hpl] at c2; injection c2 with c2
        subst c2
        exact (labOf_eq hD hS hy c1 c3).symm
      · obtain ⟨n1, n2, n3⟩ := hD.not_ex hp h1 hE
        have hyj : Anc s y (e.index j) := by
          rcases Relation.ReflTransGen.cases_head h with e' | ⟨y', a1, a2⟩
          · exact absurd (by rw [e']; exact (hS.idx j hj).2.1) hE
          · rw [h1] at a1; injection a1 with a1
            rw [a1]; exact a2
        have := hD.depth y hy
        have hu := (ih y hy (by omega)).2 hyj
        have hl : labOf g s e y = labOf g s e p := by
          obtain ⟨m1, m2⟩ := labOf_spec hD hS hy
          exact (labOf_eq hD hS hp m1 ⟨.head h1 m2.anc, m2.ex, m2.gray.trans n2⟩).symm
        rw [← hl]
        exact hu

theorem lconn_symm (hG : Graph nel nb) {l x y : Nat} (h : LConn (adj nel nb) g l x y) : LConn (adj nel nb) g l y x := by
  unfold LConn at h ⊢
  induction h with
  | refl => exact .refl
  | tail _ e ih => exact .head ⟨⟨e.1.2.1, e.1.1, hG.symm _ e.1.1 _ e.1.2.2⟩, e.2.2, e.2.1⟩ ih

/-- The stored regions are the component tree. -/
theorem isTree (hG : Graph nel nb) (hD : Done nel nb g d s) (hS : Stored nel g s e) (hL : Linked g s e e.parent e.ner) :
    IsComponentTree (adj nel nb) g (Finset.range nel) (treeE e (labOf g s e)) := by
  have hm : ∀ {x}, x ∈ Finset.range nel → x < nel := Finset.mem_range.1
  have hU : ∀ j < e.ner, ∀ p < nel, ((treeE e (labOf g s e)).Under j p ↔ LConn (adj nel nb) g (g (e.index j)) (e.index j) p) := by
    intro j hj p hp
    rw [under_iff hD hS hL hj nel p hp (by omega)]
    exact hD.closed _ (hS.idx j hj).1 (hS.idx j hj).2.1 p hp
  refine ⟨?_, ?_, ?_, ?_, ?_, ?_⟩
  · intro p hp; exact (labOf_spec hD hS (hm hp)).1
  · intro p hp
    obtain ⟨h1, h2⟩ := labOf_spec hD hS (hm hp)
    show e.value (labOf g s e p) = g p
    rw [(hS.idx _ h1).2.2.2.1, h2.gray]
  · intro r hr
    obtain ⟨h1, h2, -⟩ := hS.idx r hr
    exact ⟨e.index r, Finset.mem_range.2 h1, labOf_eq hD hS h1 hr ⟨.refl, h2, rfl⟩⟩
  · intro r hr r' hr'
    have hr' : (if e.parent r = r then none else some (e.parent r)) = some r' := hr'
    obtain ⟨h1, y, h2, h3⟩ := hL r hr
    by_cases he : e.parent r = r
    · rw [if_pos he] at hr'; exact absurd hr' (by simp)
    · rw [if_neg he] at hr'
      injection hr' with hr'
      subst hr'
      have := linked_self hD hS hL hr h2
      exact ⟨h1, this.2 fun e' => he (this.1.2 e')⟩
  · intro r hr p hp hu q hq
    have h1 := (hU r hr p (hm hp)).1 hu
    rw [hU r hr q (hm hq)]
    have hv : (treeE e (labOf g s e)).gray r = g (e.index r) := (hS.idx r hr).2.2.2.1
    rw [hv]
    exact ⟨fun h2 => (lconn_symm hG h1).trans h2, fun h2 => h1.trans h2⟩
  · intro r hr S hs
    show e.area r = S.card
    rw [(hS.idx r hr).2.2.2.2, hD.area _ (hS.idx r hr).1 (hS.idx r hr).2.1]
    congr 1
    ext p
    rw [Finset.mem_filter, hs p]
    exact and_congr_right fun hp => (hU r hr p (hm hp)).symm

/-- The forest, the extraction and the linking after sorting. -/
theorem process_spec (hG : Graph nel nb) (h0 : 0 < nel) (hcon : ∀ x < nel, ∀ y < nel, ReflTransGen (adj nel nb) x y) {gm : Nat} {fromMin : Bool}
    {junk : Int} {m : Mem} {perm : Nat → Nat} (hp : sortPixels nel g gm fromMin m.perm = some perm) (hs : Sorts nel g perm) :
    ∃ m', process nel nb g gm fromMin junk m = some m' ∧ m'.perm = perm ∧
      (∃ lab, IsComponentTree (adj nel nb) g (Finset.range nel) (treeE m'.er lab)) ∧
      (∀ j < m'.er.ner, m'.er.parent j < m'.er.ner ∧ (m'.er.parent j ≠ j → m'.er.value j < m'.er.value (m'.er.parent j))) ∧
      (∀ j k, j < k → k < m'.er.ner → m'.er.value j ≤ m'.er.value k) ∧
      (∀ j < m'.er.ner, m'.er.erOf (m'.er.index j) = some j) := by
  obtain ⟨l1, l2, l3⟩ := hs.list
  obtain ⟨s, e1, hF⟩ := pixels_spec (junk := junk) (g := g) hG ((List.range nel).map perm) ∅ _ (full_empty (nel := nel) (nb := nb) (g := g) m.r) l1
    (fun i hi => ⟨(l2 i).1 hi, by simp⟩) (by simp) (fun x hx => .inr ((l2 x).2 hx)) l3
  obtain ⟨d, hD⟩ := hF.done h0 hcon
  have hlen : (((List.range nel).map perm).filter fun x => decide (Ex g s x)).length = s.ner + 1 := by
    rw [← hD.ner, ← List.toFinset_card_of_nodup (l1.filter _)]
    congr 1
    ext x
    rw [List.mem_toFinset, List.mem_filter, l2, Finset.mem_filter, Finset.mem_range, decide_eq_true_iff]
  obtain ⟨e, e2, hE, hn⟩ := extr_spec (cap := if m.rer < s.ner + 1 then s.ner + 1 else m.rer) ((List.range nel).map perm) [] { m.er with ner := 0 }
    (fun x hx => (l2 x).1 hx) hD (by simpa using l1) (by simpa using l3) ⟨fun j hj => by simp at hj, by simp, by simp, fun j k _ hk => by simp at hk⟩
    (by rw [hlen]; dsimp only; split <;> omega)
  rw [List.nil_append] at hE
  have hS : Stored nel g s e := ⟨fun j hj => by
      obtain ⟨a1, a2⟩ := hE.idx j hj
      exact ⟨(l2 _).1 a1, a2⟩, fun x hx => hE.yes x ((l2 x).2 hx), fun x hx => hE.no x ((l2 x).2 hx), hE.mono⟩
  obtain ⟨par, e3, hL⟩ := link_spec hD hS e.ner (le_refl _)
  have hS' : Stored nel g s { e with parent := par } := ⟨hS.idx, hS.yes, hS.no, hS.mono⟩
  refine ⟨{ perm := perm, r := s, er := { e with parent := par }, rer := if m.rer < s.ner + 1 then s.ner + 1 else m.rer }, ?_, rfl,
    ⟨_, isTree hG hD hS' hL⟩, ?_, hS.mono, fun j hj => (hS.idx j hj).2.2.1⟩
  · unfold process
    rw [hp, Option.bind_some]
    dsimp only
    rw [e1, Option.bind_some]
    rw [e2, Option.bind_some, e3, Option.map_some]
  · intro j hj
    obtain ⟨h1, y, h2, h3⟩ := hL j hj
    refine ⟨h1, fun hne => ?_⟩
    have := linked_self hD hS' hL hj h2
    exact this.2 fun e' => hne (this.1.2 e')

end Verif.VlFeat
