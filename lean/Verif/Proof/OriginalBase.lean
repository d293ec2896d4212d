import Mathlib.Data.List.Infix
import Mathlib.Data.List.Chain
import Mathlib.Data.List.Nodup
import Mathlib.Data.List.Perm.Basic
import Verif.Model.Original
import Verif.Spec.Conn

/-!
# Original detector: the invariant of flooding
-/

namespace Verif.Original

open Function (update)
open Relation (ReflTransGen)
open Verif.Linear (Dim)
open Verif.Spec (LConn)

/-- Reflexive ancestor relation. -/
def Up (par : Nat → Option Nat) : Nat → Nat → Prop := ReflTransGen fun a b => par a = some b

theorem Up.of_root {par : Nat → Option Nat} {a b : Nat} (h : par a = none) : Up par a b ↔ b = a := by
  constructor
  · intro hp
    rcases ReflTransGen.cases_head hp with h' | ⟨c, h1, _⟩
    · exact h'.symm
    · simp [h] at h1
  · rintro rfl; exact .refl

/-- Ancestors of one region are comparable. -/
theorem Up.total {par : Nat → Option Nat} {a b c : Nat} (h1 : Up par a b) (h2 : Up par a c) : Up par b c ∨ Up par c b := by
  induction h1 with
  | refl => exact .inl h2
  | tail h3 h4 ih =>
    rcases ih with h | h
    · rcases ReflTransGen.cases_head h with h' | ⟨d, h5, h6⟩
      · subst h'; exact .inr (.single h4)
      · rw [h4] at h5; cases h5; exact .inl h6
    · exact .inr (h.tail h4)

theorem Up.root_unique {par : Nat → Option Nat} {a b c : Nat} (h1 : Up par a b) (h2 : Up par a c) (hb : par b = none)
    (hc : par c = none) : b = c := by
  rcases h1.total h2 with h | h
  · exact ((Up.of_root hb).1 h).symm
  · exact (Up.of_root hc).1 h

/-- Hanging the root `x` below the root `y`. -/
theorem Up.hang {par : Nat → Option Nat} {x y : Nat} (hx : par x = none) (hy : par y = none) (hxy : x ≠ y) (a b : Nat) :
    Up (update par x (some y)) a b ↔ Up par a b ∨ (Up par a x ∧ b = y) := by
  constructor
  · intro h
    induction h with
    | refl => exact .inl .refl
    | @tail c d _ h4 ih =>
      by_cases hc : c = x
      · subst hc
        rw [Function.update_self] at h4
        cases h4
        rcases ih with h | ⟨h, h'⟩
        · exact .inr ⟨h, rfl⟩
        · exact absurd h' hxy
      · rw [Function.update_of_ne hc] at h4
        rcases ih with h | ⟨h, h'⟩
        · exact .inl (h.tail h4)
        · rw [h', hy] at h4; cases h4
  · have key : ∀ {b}, Up par a b → Up (update par x (some y)) a b := by
      intro b h
      induction h with
      | refl => exact .refl
      | @tail c d _ h4 ih =>
        refine ih.tail ?_
        have : c ≠ x := by rintro rfl; rw [hx] at h4; cases h4
        rw [Function.update_of_ne this]; exact h4
    rintro (h | ⟨h, rfl⟩)
    · exact key h
    · exact (key h).tail (by simp)

theorem Up.mono {par : Nat → Option Nat} (hp : ∀ a b, par a = some b → a < b) {a b : Nat} (h : Up par a b) : a ≤ b := by
  induction h with
  | refl => exact le_rfl
  | tail _ h4 ih => exact ih.trans (hp _ _ h4).le

/-- The cells, their values and the neighbours. -/
structure Env where
  D : Dim
  area : Nat
  img : Nat → Int
  cap : Nat

variable {E : Env}

/-- The cell is a pixel taken over. -/
def Env.inn (E : Env) (c : Nat) : Prop := 0 ≤ E.img c
/-- Its value. -/
def Env.val (E : Env) (c : Nat) : Nat := (E.img c).toNat
/-- Two pixels are neighbours. -/
def Env.adj (E : Env) (a b : Nat) : Prop := E.inn a ∧ E.inn b ∧ ∃ k < E.D.dirs.length, E.D.nbr a k = some b

/-- What the proof needs of the cells; `all` lists the pixels. -/
structure Env.OK (E : Env) (all : List Nat) : Prop where
  nbr : ∀ c, E.inn c → ∀ k < E.D.dirs.length, ∃ o, E.D.nbr c k = some o
  symm : ∀ a b, E.adj a b → E.adj b a
  mem : ∀ c, c ∈ all ↔ E.inn c
  nodup : all.Nodup
  area : E.area = all.length
  cap : E.area ≤ E.cap

/-- The regions' parents. -/
abbrev par (s : St) (r : Nat) : Option Nat := (s.regs r).parent

/-- The invariant; `Ls r` are the cells of region `r`, `g` the current gray level, `pend` the cells whose neighbours
have not all been looked at, all of them in region `cur`. -/
structure Inv (E : Env) (s : St) (Ls : Nat → List Nat) (g cur : Nat) (pend : List Nat) : Prop where
  eD : s.D = E.D
  earea : s.area = E.area
  eimg : s.img = E.img
  ecap : s.cap = E.cap
  par_lt : ∀ r < s.nreg, ∀ p, par s r = some p → r < p ∧ p < s.nreg
  gray_le : ∀ r < s.nreg, ∀ p, par s r = some p → (s.regs r).gray ≤ (s.regs p).gray
  merged : ∀ r < s.nreg, ((s.regs r).merged = true ↔ ∃ p, par s r = some p ∧ (s.regs r).gray = (s.regs p).gray)
  short : ∀ r < s.nreg, Up (par s) r (s.regs r).short
  short_self : ∀ r < s.nreg, ((s.regs r).short = r ↔ par s r = none)
  head : ∀ r < s.nreg, (Ls r).head? = some (s.regs r).head
  last : ∀ r < s.nreg, (Ls r).getLast? = some (s.regs r).tail
  head_reg : ∀ r < s.nreg, (s.pts (s.regs r).head).reg = some r
  size : ∀ r < s.nreg, (s.regs r).size = (Ls r).length
  nodup : ∀ r < s.nreg, (Ls r).Nodup
  mem : ∀ r < s.nreg, ∀ c, c ∈ Ls r ↔ ∃ q, (s.pts c).reg = some q ∧ Up (par s) q r
  reg : ∀ c q, (s.pts c).reg = some q → q < s.nreg ∧ E.inn c ∧ E.val c = (s.regs q).gray
  sub : ∀ r < s.nreg, ∀ p, par s r = some p → Ls r <:+: Ls p
  chain : ∀ r < s.nreg, par s r = none → (Ls r).IsChain fun a b => (s.pts a).next = some b
  conn : ∀ r < s.nreg, ∀ a ∈ Ls r, ∀ b ∈ Ls r, LConn E.adj E.val (s.regs r).gray a b
  closed : ∀ r < s.nreg, ∀ p, par s r = some p → (s.regs r).merged = false →
    ∀ c ∈ Ls r, ∀ o, E.adj c o → E.val o ≤ (s.regs r).gray → o ∈ Ls r
  seen : ∀ c, E.inn c → E.val c < g → ∃ q, (s.pts c).reg = some q
  level : ∀ r < s.nreg, (s.regs r).gray ≤ g
  pend_reg : ∀ c ∈ pend, (s.pts c).reg = some cur
  pend_nodup : pend.Nodup
  done : ∀ c q, (s.pts c).reg = some q → c ∉ pend → ∀ o, E.adj c o → E.val o ≤ E.val c →
    ∀ r < s.nreg, par s r = none → c ∈ Ls r → o ∈ Ls r

/-- `cur` is the region being grown. -/
structure Growing (s : St) (g cur : Nat) : Prop where
  last : cur + 1 = s.nreg
  root : par s cur = none
  gray : (s.regs cur).gray = g

section
variable {s : St} {Ls : Nat → List Nat} {g cur : Nat} {pend : List Nat}

theorem Inv.up_lt (h : Inv E s Ls g cur pend) {a b : Nat} (ha : a < s.nreg) (hu : Up (par s) a b) : b < s.nreg ∧ a ≤ b := by
  induction hu with
  | refl => exact ⟨ha, le_rfl⟩
  | tail _ h4 ih => have := h.par_lt _ ih.1 _ h4; exact ⟨this.2, ih.2.trans this.1.le⟩

theorem Inv.up_sub (h : Inv E s Ls g cur pend) {a b : Nat} (ha : a < s.nreg) (hu : Up (par s) a b) : Ls a <:+: Ls b := by
  induction hu with
  | refl => exact List.infix_rfl
  | tail h3 h4 ih => exact ih.trans (h.sub _ (h.up_lt ha h3).1 _ h4)

theorem Inv.root_exists (h : Inv E s Ls g cur pend) : ∀ n a, s.nreg - a ≤ n → a < s.nreg → ∃ r < s.nreg, Up (par s) a r ∧ par s r = none := by
  intro n
  induction n with
  | zero => intro a h1 h2; omega
  | succ n ih =>
    intro a h1 h2
    cases hp : par s a with
    | none => exact ⟨a, h2, .refl, hp⟩
    | some p =>
      have h3 := h.par_lt a h2 p hp
      obtain ⟨r, h4, h5, h6⟩ := ih p (by omega) h3.2
      exact ⟨r, h4, ReflTransGen.head hp h5, h6⟩

/-- Every seen cell is in the list of exactly one root. -/
theorem Inv.root_of (h : Inv E s Ls g cur pend) {c q : Nat} (hc : (s.pts c).reg = some q) :
    ∃ r < s.nreg, par s r = none ∧ c ∈ Ls r := by
  have h1 := h.reg c q hc
  obtain ⟨r, h2, h3, h4⟩ := h.root_exists _ q le_rfl h1.1
  exact ⟨r, h2, h4, (h.mem r h2 c).2 ⟨q, hc, h3⟩⟩

theorem Inv.root_same (h : Inv E s Ls g cur pend) {c r r' : Nat} (hr : r < s.nreg) (hr' : r' < s.nreg)
    (p : par s r = none) (p' : par s r' = none) (hc : c ∈ Ls r) (hc' : c ∈ Ls r') : r = r' := by
  obtain ⟨q, h1, h2⟩ := (h.mem r hr c).1 hc
  obtain ⟨q', h3, h4⟩ := (h.mem r' hr' c).1 hc'
  rw [h1] at h3; cases h3
  exact h2.root_unique h4 p p'

theorem Inv.val_le (h : Inv E s Ls g cur pend) {c r : Nat} (hr : r < s.nreg) (hc : c ∈ Ls r) : E.val c ≤ (s.regs r).gray := by
  obtain ⟨q, h1, h2⟩ := (h.mem r hr c).1 hc
  have h3 := h.reg c q h1
  rw [h3.2.2]
  induction h2 with
  | refl => exact le_rfl
  | tail h5 h4 ih =>
    have := h.up_lt h3.1 h5
    refine (ih this.1 ((h.mem _ this.1 c).2 ⟨q, h1, h5⟩)).trans (h.gray_le _ this.1 _ h4)

theorem Inv.inn (h : Inv E s Ls g cur pend) {c r : Nat} (hr : r < s.nreg) (hc : c ∈ Ls r) : E.inn c := by
  obtain ⟨q, h1, _⟩ := (h.mem r hr c).1 hc
  exact (h.reg c q h1).2.1

theorem Inv.ne_nil (h : Inv E s Ls g cur pend) {r : Nat} (hr : r < s.nreg) : Ls r ≠ [] := by
  intro e; have := h.head r hr; rw [e] at this; cases this

end

/-! ### Lists -/

/-- Appending to a chain of `next` pointers. -/
theorem chain_append {n n' : Nat → Option Nat} {l m : List Nat} {t b : Nat} (hl : l.IsChain fun a b => n a = some b)
    (hm : m.IsChain fun a b => n a = some b) (ht : l.getLast? = some t) (hb : m.head? = some b) (hnd : l.Nodup)
    (htm : t ∉ m) (hn : ∀ a, a ≠ t → n' a = n a) (hnt : n' t = some b) : (l ++ m).IsChain fun a b => n' a = some b := by
  rw [List.isChain_append]
  refine ⟨?_, ?_, ?_⟩
  · obtain ⟨l', rfl⟩ := List.getLast?_eq_some_iff.1 ht
    clear ht
    induction l' with
    | nil => simp
    | cons a l' ih =>
      cases l' with
      | nil =>
        simp only [List.cons_append, List.nil_append, List.isChain_cons_cons, List.isChain_singleton, and_true] at hl ⊢
        rw [hn a (by simp at hnd; exact hnd)]; exact hl
      | cons c l' =>
        simp only [List.cons_append, List.isChain_cons_cons] at hl ⊢
        refine ⟨?_, ?_⟩
        · rw [hn a (by simp only [List.cons_append, List.nodup_cons, List.mem_cons, List.mem_append] at hnd; tauto)]
          exact hl.1
        · exact ih hl.2 (by simp only [List.cons_append] at hnd ⊢; exact (List.nodup_cons.1 hnd).2)
  · refine hm.imp_of_mem_imp ?_
    intro a c ha _ h
    rw [hn a (by rintro rfl; exact htm ha)]; exact h
  · intro x hx y hy
    rw [ht] at hx; rw [hb] at hy
    cases hx; cases hy; exact hnt

theorem chain_congr {n n' : Nat → Option Nat} {l : List Nat} (hl : l.IsChain fun a b => n a = some b)
    (hn : ∀ a ∈ l, n' a = n a) : l.IsChain fun a b => n' a = some b := by
  refine hl.imp_of_mem_imp ?_
  intro a c ha _ h
  rw [hn a ha]; exact h

end Verif.Original
