import Mathlib.Logic.Relation

/-!
# Specification: connected components of a set of points
-/

namespace Verif.Spec

/-- Neighbours: eight of them, or four. -/
def Touches (eight : Bool) (p q : Int × Int) : Prop :=
  p ≠ q ∧ -1 ≤ q.1 - p.1 ∧ q.1 - p.1 ≤ 1 ∧ -1 ≤ q.2 - p.2 ∧ q.2 - p.2 ≤ 1 ∧ (eight = false → q.1 = p.1 ∨ q.2 = p.2)

/-- Joined by a path of neighbours in `K`. -/
def JoinedIn (eight : Bool) (K : Int × Int → Prop) : Int × Int → Int × Int → Prop :=
  Relation.ReflTransGen fun a b => Touches eight a b ∧ K a ∧ K b

/-- `L` lists the connected components of `K`, each point once. -/
structure IsComponents (eight : Bool) (K : Int × Int → Prop) (L : List (List (Int × Int))) : Prop where
  each : ∀ p, K p → ∃ l ∈ L, p ∈ l
  only : ∀ l ∈ L, ∀ p ∈ l, K p
  once : L.flatten.Nodup
  nonempty : ∀ l ∈ L, l ≠ []
  joined : ∀ l ∈ L, ∀ p ∈ l, ∀ q, K q → (q ∈ l ↔ JoinedIn eight K p q)

end Verif.Spec
