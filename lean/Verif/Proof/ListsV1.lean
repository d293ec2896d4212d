import Verif.Model.FloodV1
import Verif.Spec.Lists
import Verif.Proof.FloodInv

/-!
# Fast MSER V1: the point lists while flooding

The invariant `LI` on point lists, and its preservation by the list operations.  Nothing here refers to the
control flow of the flooding loop.
-/

namespace Verif.V1

open Function (update)
open Relation (ReflTransGen)
open Verif.Spec (Linked)

/-- Reflexive ancestor relation given by parent links. -/
def Anc (par : Nat → Option Nat) : Nat → Nat → Prop := ReflTransGen (fun a b => par a = some b)

theorem Anc.root {par : Nat → Option Nat} {a b : Nat} (h : par a = none) : Anc par a b ↔ b = a := by
  constructor
  · intro hp
    rcases ReflTransGen.cases_head hp with h' | ⟨c, h1, _⟩
    · exact h'.symm
    · simp [h] at h1
  · rintro rfl; exact .refl

theorem Anc.lt {par : Nat → Option Nat} {n a b : Nat} (hp : ∀ r < n, ∀ r', par r = some r' → r' < n) (ha : a < n)
    (h : Anc par a b) : b < n := by
  induction h with
  | refl => exact ha
  | tail _ h ih => exact hp _ ih _ h

/-- Ancestors after giving the root `c` the root `d` as parent. -/
theorem Anc.link {par par' : Nat → Option Nat} {n c d : Nat}
    (hn : ∀ a < n, ∀ b, par a = some b → b < n) (hc : par c = none)
    (h1 : ∀ a < n, a ≠ c → par' a = par a) (h2 : par' c = some d) (h3 : par' d = none) {a r : Nat} (ha : a < n) :
    Anc par' a r ↔ Anc par a r ∨ (Anc par a c ∧ r = d) := by
  constructor
  · intro h
    induction h using ReflTransGen.head_induction_on with
    | refl => exact .inl .refl
    | @head x y hxy hyr ih =>
      by_cases hx : x = c
      · subst hx
        rw [h2] at hxy
        obtain rfl : d = y := by simpa using hxy
        exact .inr ⟨.refl, (Anc.root h3).1 hyr⟩
      · rw [h1 x ha hx] at hxy
        rcases ih (hn x ha y hxy) with h | ⟨h, h'⟩
        · exact .inl (.head hxy h)
        · exact .inr ⟨.head hxy h, h'⟩
  · have key : ∀ b, Anc par a b → b < n ∧ Anc par' a b := by
      intro b hb
      induction hb with
      | refl => exact ⟨ha, .refl⟩
      | @tail x y _ hxy ih =>
        refine ⟨hn x ih.1 y hxy, .tail ih.2 ?_⟩
        have hx : x ≠ c := by rintro rfl; simp [hc] at hxy
        rw [h1 x ih.1 hx]; exact hxy
    rintro (h | ⟨h, rfl⟩)
    · exact (key r h).2
    · exact .tail (key c h).2 h2

/-- Successor and predecessor as functions of the index. -/
def nx (pts : Nat → Point) (a : Nat) : Option Nat := (pts a).next
def pv (pts : Nat → Point) (a : Nat) : Option Nat := (pts a).prev

/-! ### Links under changes -/

theorem Linked.cons {nxt prv : Nat → Option Nat} {a b : Nat} {l : List Nat} :
    Linked nxt prv (a :: b :: l) ↔ (nxt a = some b ∧ prv b = some a) ∧ Linked nxt prv (b :: l) := by
  unfold Linked; exact List.isChain_cons_cons

/-- In a run every node except the last has a successor, every node except the first a predecessor. -/
theorem Linked.next_some {nxt prv : Nat → Option Nat} : ∀ {l : List Nat}, Linked nxt prv l → ∀ a ∈ l,
    nxt a = none → l.getLast? = some a
  | [], _, a, ha, _ => by simp at ha
  | [b], _, a, ha, _ => by simp at ha; simp [ha]
  | b :: c :: l, h, a, ha, hn => by
    rw [Linked.cons] at h
    rcases List.mem_cons.1 ha with rfl | ha
    · simp [h.1.1] at hn
    · rw [List.getLast?_cons_cons]; exact Linked.next_some h.2 a ha hn

theorem Linked.prev_some {nxt prv : Nat → Option Nat} : ∀ {l : List Nat}, Linked nxt prv l → ∀ a ∈ l,
    prv a = none → l.head? = some a
  | [], _, a, ha, _ => by simp at ha
  | [b], _, a, ha, _ => by simp at ha; simp [ha]
  | b :: c :: l, h, a, ha, hn => by
    rw [Linked.cons] at h
    rcases List.mem_cons.1 ha with rfl | ha
    · simp
    · have := Linked.prev_some h.2 a ha hn
      simp at this; subst this; simp [h.1.2] at hn

/-- Links are kept if successors and predecessors are. -/
theorem Linked.mono {n1 p1 n2 p2 : Nat → Option Nat} : ∀ {l : List Nat},
    (∀ a ∈ l, ∀ b, n1 a = some b → n2 a = some b) → (∀ a ∈ l, ∀ b, p1 a = some b → p2 a = some b) →
    Linked n1 p1 l → Linked n2 p2 l
  | [], _, _, _ => by simp [Linked]
  | [b], _, _, _ => by simp [Linked]
  | b :: c :: l, h1, h2, h => by
    rw [Linked.cons] at h ⊢
    refine ⟨⟨h1 b (by simp) c h.1.1, h2 c (by simp) b h.1.2⟩, ?_⟩
    exact Linked.mono (fun a ha => h1 a (List.mem_cons_of_mem _ ha)) (fun a ha => h2 a (List.mem_cons_of_mem _ ha)) h.2

theorem Linked.append {nxt prv : Nat → Option Nat} : ∀ {l k : List Nat} {a b : Nat}, Linked nxt prv l →
    Linked nxt prv k → l.getLast? = some a → k.head? = some b → nxt a = some b → prv b = some a →
    Linked nxt prv (l ++ k)
  | [], _, _, _, _, _, h, _, _, _ => by simp at h
  | [x], k, a, b, _, hk, h, hb, h1, h2 => by
    simp at h; subst h
    cases k with
    | nil => simp at hb
    | cons y k =>
      simp at hb; subst hb
      simp only [List.singleton_append, Linked.cons]
      exact ⟨⟨h1, h2⟩, hk⟩
  | x :: y :: l, k, a, b, hl, hk, h, hb, h1, h2 => by
    rw [Linked.cons] at hl
    rw [List.getLast?_cons_cons] at h
    have := Linked.append hl.2 hk h hb h1 h2
    simp only [List.cons_append] at this ⊢
    rw [Linked.cons]; exact ⟨hl.1, this⟩

/-- The rectangle spanned by the points of a non-empty list. -/
structure Tight (pts : Nat → Point) (l : List Nat) (R : Rect) : Prop where
  inside : ∀ a ∈ l, R.left ≤ (pts a).x ∧ (pts a).x ≤ R.right ∧ R.top ≤ (pts a).y ∧ (pts a).y ≤ R.bottom
  left : ∃ a ∈ l, (pts a).x = R.left
  right : ∃ a ∈ l, (pts a).x = R.right
  top : ∃ a ∈ l, (pts a).y = R.top
  bottom : ∃ a ∈ l, (pts a).y = R.bottom

theorem Tight.congr {pts pts' : Nat → Point} {l : List Nat} {R : Rect} (h : Tight pts l R)
    (hx : ∀ a ∈ l, (pts' a).x = (pts a).x ∧ (pts' a).y = (pts a).y) : Tight pts' l R where
  inside := fun a ha => by rw [(hx a ha).1, (hx a ha).2]; exact h.inside a ha
  left := by obtain ⟨a, ha, e⟩ := h.left; exact ⟨a, ha, by rw [(hx a ha).1, e]⟩
  right := by obtain ⟨a, ha, e⟩ := h.right; exact ⟨a, ha, by rw [(hx a ha).1, e]⟩
  top := by obtain ⟨a, ha, e⟩ := h.top; exact ⟨a, ha, by rw [(hx a ha).2, e]⟩
  bottom := by obtain ⟨a, ha, e⟩ := h.bottom; exact ⟨a, ha, by rw [(hx a ha).2, e]⟩

theorem Tight.single {pts : Nat → Point} {a : Nat} : Tight pts [a] ⟨(pts a).x, (pts a).x, (pts a).y, (pts a).y⟩ := by
  constructor <;> simp

theorem Tight.grow {pts : Nat → Point} {l : List Nat} {R : Rect} (h : Tight pts l R) (n : Nat) :
    Tight pts (n :: l) (R.grow (pts n).x (pts n).y) := by
  obtain ⟨a1, h1, e1⟩ := h.left
  obtain ⟨a2, h2, e2⟩ := h.right
  obtain ⟨a3, h3, e3⟩ := h.top
  obtain ⟨a4, h4, e4⟩ := h.bottom
  have i1 := h.inside a1 h1
  have i3 := h.inside a3 h3
  constructor
  · intro a ha
    rcases List.mem_cons.1 ha with rfl | ha
    · simp only [Rect.grow]; refine ⟨?_, ?_, ?_, ?_⟩ <;> split <;> (try split) <;> omega
    · have := h.inside a ha
      simp only [Rect.grow]; refine ⟨?_, ?_, ?_, ?_⟩ <;> split <;> (try split) <;> omega
  · by_cases c : (pts n).x < R.left
    · exact ⟨n, by simp, by simp [Rect.grow, c]⟩
    · exact ⟨a1, by simp [h1], by simp [Rect.grow, c, e1]⟩
  · by_cases c : (pts n).x < R.left
    · exact ⟨a2, by simp [h2], by simp [Rect.grow, c, e2]⟩
    · by_cases c' : R.right < (pts n).x
      · exact ⟨n, by simp, by simp [Rect.grow, c, c']⟩
      · exact ⟨a2, by simp [h2], by simp [Rect.grow, c, c', e2]⟩
  · by_cases c : (pts n).y < R.top
    · exact ⟨n, by simp, by simp [Rect.grow, c]⟩
    · exact ⟨a3, by simp [h3], by simp [Rect.grow, c, e3]⟩
  · by_cases c : (pts n).y < R.top
    · exact ⟨a4, by simp [h4], by simp [Rect.grow, c, e4]⟩
    · by_cases c' : R.bottom < (pts n).y
      · exact ⟨n, by simp, by simp [Rect.grow, c, c']⟩
      · exact ⟨a4, by simp [h4], by simp [Rect.grow, c, c', e4]⟩

theorem Tight.join {pts : Nat → Point} {l k : List Nat} {R S : Rect} (h : Tight pts l R) (h' : Tight pts k S) :
    Tight pts (l ++ k) (R.join S) := by
  obtain ⟨a1, h1, e1⟩ := h.left
  obtain ⟨a2, h2, e2⟩ := h.right
  obtain ⟨a3, h3, e3⟩ := h.top
  obtain ⟨a4, h4, e4⟩ := h.bottom
  obtain ⟨b1, k1, f1⟩ := h'.left
  obtain ⟨b2, k2, f2⟩ := h'.right
  obtain ⟨b3, k3, f3⟩ := h'.top
  obtain ⟨b4, k4, f4⟩ := h'.bottom
  constructor
  · intro a ha
    rcases List.mem_append.1 ha with ha | ha
    · have := h.inside a ha
      simp only [Rect.join]; refine ⟨?_, ?_, ?_, ?_⟩ <;> split <;> omega
    · have := h'.inside a ha
      simp only [Rect.join]; refine ⟨?_, ?_, ?_, ?_⟩ <;> split <;> omega
  · by_cases c : S.left < R.left
    · exact ⟨b1, by simp [k1], by simp [Rect.join, c, f1]⟩
    · exact ⟨a1, by simp [h1], by simp [Rect.join, c, e1]⟩
  · by_cases c : R.right < S.right
    · exact ⟨b2, by simp [k2], by simp [Rect.join, c, f2]⟩
    · exact ⟨a2, by simp [h2], by simp [Rect.join, c, e2]⟩
  · by_cases c : S.top < R.top
    · exact ⟨b3, by simp [k3], by simp [Rect.join, c, f3]⟩
    · exact ⟨a3, by simp [h3], by simp [Rect.join, c, e3]⟩
  · by_cases c : R.bottom < S.bottom
    · exact ⟨b4, by simp [k4], by simp [Rect.join, c, f4]⟩
    · exact ⟨a4, by simp [h4], by simp [Rect.join, c, e4]⟩

end Verif.V1
