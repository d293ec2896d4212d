import Verif.Model.Flood
import Verif.Proof.Conn
import Mathlib.Data.Finset.Basic
import Mathlib.Data.Finset.Insert
import Mathlib.Data.Finset.Card

/-!
# Flooding: the invariant

Helper lemmas only; the property theorems are in `Verif.Props.Flood`.
-/

namespace Verif.Flood

open Function (update)
open Verif.Spec (LConn)
open Relation (ReflTransGen)

/-- Adjacency of the pixels of a patch. -/
def Patch.adj (P : Patch) (i j : Nat) : Prop :=
  i ∈ P.px ∧ j ∈ P.px ∧ ∃ k, 1 ≤ k ∧ k ≤ P.nd ∧ P.nb i k = j

/-- What the callers of `make_tree_patch` guarantee about a patch. -/
structure Patch.OK (P : Patch) : Prop where
  start_mem : P.start ∈ P.px
  gray_lt : ∀ i ∈ P.px, P.gray i < 257
  symm : ∀ i ∈ P.px, ∀ k, 1 ≤ k → k ≤ P.nd → P.nb i k ∈ P.px →
    ∃ k', 1 ≤ k' ∧ k' ≤ P.nd ∧ P.nb (P.nb i k) k' = i
  conn : ∀ i ∈ P.px, ReflTransGen P.adj P.start i

/-- Reflexive ancestor relation of the region forest. -/
def Anc (regs : Nat → Reg) : Nat → Nat → Prop :=
  ReflTransGen (fun a b => (regs a).parent = some b)

theorem Patch.OK.adj_symm {P : Patch} (h : P.OK) (i j : Nat) (ha : P.adj i j) : P.adj j i := by
  obtain ⟨hi, hj, k, h1, h2, rfl⟩ := ha
  obtain ⟨k', h3, h4, h5⟩ := h.symm i hi k h1 h2 hj
  exact ⟨hj, hi, k', h3, h4, h5⟩

/-! ## Ancestors under updates -/

theorem Anc.congr {regs regs' : Nat → Reg} (h : ∀ r, (regs' r).parent = (regs r).parent) :
    Anc regs' = Anc regs := by
  have : (fun a b => (regs' a).parent = some b) = (fun a b => (regs a).parent = some b) := by
    funext a b; rw [h]
  unfold Anc; rw [this]

theorem Anc.root {regs : Nat → Reg} {a b : Nat} (h : (regs a).parent = none) :
    Anc regs a b ↔ b = a := by
  constructor
  · intro hp
    rcases ReflTransGen.cases_head hp with h' | ⟨c, h1, _⟩
    · exact h'.symm
    · simp [h] at h1
  · rintro rfl; exact .refl

theorem Anc.lt {regs : Nat → Reg} {n a b : Nat}
    (hp : ∀ r < n, ∀ r', (regs r).parent = some r' → r' < n ∧ (regs r).gray < (regs r').gray)
    (ha : a < n) (h : Anc regs a b) : b < n ∧ (regs a).gray ≤ (regs b).gray ∧
      ((regs a).gray = (regs b).gray → a = b) := by
  induction h with
  | refl => exact ⟨ha, le_refl _, fun _ => rfl⟩
  | tail _ h ih =>
    obtain ⟨h1, h2, h3⟩ := ih
    obtain ⟨h4, h5⟩ := hp _ h1 _ h
    exact ⟨h4, by omega, by omega⟩

/-- Ancestors after giving the root `c` the (new or old) root `d` as parent. -/
theorem Anc.link {regs regs' : Nat → Reg} {n c d : Nat}
    (hn : ∀ a < n, ∀ b, (regs a).parent = some b → b < n)
    (hc : (regs c).parent = none)
    (h1 : ∀ a < n, a ≠ c → (regs' a).parent = (regs a).parent)
    (h2 : (regs' c).parent = some d) (h3 : (regs' d).parent = none)
    {a r : Nat} (ha : a < n) :
    Anc regs' a r ↔ Anc regs a r ∨ (Anc regs a c ∧ r = d) := by
  constructor
  · intro h
    induction h using ReflTransGen.head_induction_on with
    | refl => exact .inl .refl
    | @head x y hxy hyr ih =>
      by_cases hx : x = c
      · subst hx
        rw [h2] at hxy
        obtain rfl : d = y := by simpa using hxy
        have : r = d := (Anc.root h3).1 hyr
        exact .inr ⟨.refl, this⟩
      · rw [h1 x ha hx] at hxy
        rcases ih (hn x ha y hxy) with h | ⟨h, h'⟩
        · exact .inl (.head hxy h)
        · exact .inr ⟨.head hxy h, h'⟩
  · have key : ∀ b, Anc regs a b → b < n ∧ Anc regs' a b := by
      intro b hb
      induction hb with
      | refl => exact ⟨ha, .refl⟩
      | @tail x y _ hxy ih =>
        refine ⟨hn x ih.1 y hxy, .tail ih.2 ?_⟩
        have hx : x ≠ c := by rintro rfl; simp [hc] at hxy
        rw [h1 x ih.1 hx]; exact hxy
    rintro (h | ⟨h, rfl⟩)
    · exact (key r h).2
    · exact .tail (key c h).2 h2

open Classical in
/-- Finished pixels of region `r`. -/
noncomputable def below (regs : Nat → Reg) (lab : Nat → Nat) (F : Finset Nat) (r : Nat) : Finset Nat :=
  F.filter (fun i => Anc regs (lab i) r)

theorem mem_below {regs : Nat → Reg} {lab : Nat → Nat} {F : Finset Nat} {r i : Nat} :
    i ∈ below regs lab F r ↔ i ∈ F ∧ Anc regs (lab i) r := by
  simp [below]

/-- What is known about a region that has been completed. -/
structure Closed (P : Patch) (lab : Nat → Nat) (regs : Nat → Reg) (F : Finset Nat) (r : Nat) : Prop where
  closed : ∀ i ∈ F, Anc regs (lab i) r → ∀ j, P.adj i j → P.gray j ≤ (regs r).gray →
    j ∈ F ∧ Anc regs (lab j) r
  conn : ∀ i ∈ F, Anc regs (lab i) r → ∀ j ∈ F, Anc regs (lab j) r →
    LConn P.adj P.gray (regs r).gray i j
  own : ∃ i ∈ F, lab i = r
  size : (regs r).size = (below regs lab F r).card

/-- The sentinel at the bottom of the component stack. -/
def sent : Comp := { region := 0, gray := 257, size := 0 }

/-- The invariant, apart from what concerns the current pixel.
`F`: finished pixels; `isCur`: is the current pixel; `a`: a pixel all open work is connected to;
`m`: lowest level with possibly waiting pixels = level of the top component. -/
structure Core (P : Patch) (cnt lab : Nat → Nat) (heap : Nat → List Nat) (cs : List Comp)
    (regs : Nat → Reg) (nreg : Nat) (F : Finset Nat) (isCur : Nat → Prop) (a m : Nat) : Prop where
  F_px : ∀ i ∈ F, i ∈ P.px
  heap_ok : ∀ l, ∀ i ∈ heap l, i ∈ P.px ∧ P.gray i = l ∧ cnt i ≠ 0 ∧ i ∉ F ∧ ¬ isCur i
  heap_nodup : ∀ l, (heap l).Nodup
  heap_low : ∀ l < m, heap l = []
  heap_conn : ∀ l, ∀ i ∈ heap l, LConn P.adj P.gray l i a
  cnt_F : ∀ i ∈ F, cnt i = P.nd + 1
  cnt_out : ∀ i, i ∉ P.px → cnt i ≠ 0
  cnt_le : ∀ i ∈ P.px, cnt i ≤ P.nd + 1
  vis : ∀ i ∈ P.px, cnt i ≠ 0 → i ∈ F ∨ isCur i ∨ i ∈ heap (P.gray i)
  toured_heap : ∀ l, ∀ i ∈ heap l, ∀ k, 1 ≤ k → k < cnt i → cnt (P.nb i k) ≠ 0
  toured_F : ∀ i ∈ F, ∀ k, 1 ≤ k → k ≤ P.nd → cnt (P.nb i k) ≠ 0
  reg_parent : ∀ r < nreg, ∀ r', (regs r).parent = some r' → r' < nreg ∧ (regs r).gray < (regs r').gray
  lab_ok : ∀ i ∈ F, lab i < nreg ∧ (regs (lab i)).gray = P.gray i
  cs_sorted : cs.Pairwise (fun x y => x.gray < y.gray)
  cs_reg : ∀ c ∈ cs, c.region < nreg ∧ (regs c.region).gray = c.gray ∧ c.gray < 257 ∧
    (regs c.region).parent = none
  cs_img : ∀ c ∈ cs, ∃ i ∈ P.px, P.gray i = c.gray
  root_cs : ∀ r < nreg, (regs r).parent = none → ∃ c ∈ cs, c.region = r
  cs_top : ∃ c rest, cs = c :: rest ∧ c.gray = m
  cs_wait : ∀ c ∈ cs.tail, heap c.gray ≠ []
  cs_conn : ∀ c ∈ cs, ∀ i ∈ F, Anc regs (lab i) c.region → LConn P.adj P.gray c.gray i a
  cs_closed : ∀ c ∈ cs, ∀ i ∈ F, Anc regs (lab i) c.region → ∀ j, P.adj i j →
    (j ∈ F ∧ Anc regs (lab j) c.region) ∨ (j ∉ F ∧ c.gray ≤ P.gray j)
  cs_size : ∀ c ∈ cs, c.size = (below regs lab F c.region).card
  closed : ∀ r < nreg, (regs r).parent ≠ none → Closed P lab regs F r

/-- The invariant at the head of the loop. -/
structure Inv (P : Patch) (s : St) (cs : List Comp) (F : Finset Nat) : Prop where
  comps : s.comps = cs ++ [sent]
  core : Core P s.cnt s.lab s.heap cs s.regs s.nreg F (· = s.cur) s.cur s.curGray
  cur_px : s.cur ∈ P.px
  cur_gray : P.gray s.cur = s.curGray
  cur_F : s.cur ∉ F
  cnt_cur : s.cnt s.cur ≠ 0
  nbr_pos : 1 ≤ s.nbr
  nbr_le : s.nbr ≤ P.nd + 1
  toured_cur : ∀ k, 1 ≤ k → k < s.nbr → s.cnt (P.nb s.cur k) ≠ 0

/-! ## Initial state -/

theorem inv_init {P : Patch} (h : P.OK) :
    Inv P (init P) [{ region := 0, gray := P.gray P.start, size := 0 }] ∅ := by
  have hs := h.start_mem
  have hg := h.gray_lt _ hs
  refine ⟨rfl, ?_, hs, rfl, by simp, by simp [init], by simp [init], by simp [init], ?_⟩
  · constructor <;> try simp only [init, Finset.notMem_empty, false_imp_iff, implies_true, List.not_mem_nil]
    case heap_nodup => simp
    case cnt_out =>
      intro i hi
      have : i ≠ P.start := by rintro rfl; exact hi hs
      simp [update, this, hi]
    case cnt_le =>
      intro i hi
      by_cases hx : i = P.start <;> simp [update, hx, hi]
    case vis =>
      intro i hi
      by_cases hx : i = P.start <;> simp [update, hx, hi]
    case reg_parent => simp
    case cs_sorted => simp
    case cs_reg => simp [hg]
    case cs_img => simp only [List.mem_singleton, forall_eq]; exact ⟨_, hs, rfl⟩
    case root_cs => simp
    case cs_top => simp
    case cs_wait => simp
    case cs_size => simp [below]
    case closed => simp
  · intro k h1 h2; simp [init] at h2; omega

end Verif.Flood
