import Mathlib.Logic.Relation
import Mathlib.Data.Finset.Card

/-!
# Specification: level connectivity and component trees

Nothing in this file refers to the model of the code.  It says what a component tree of a
gray image on a pixel graph is.
-/

namespace Verif.Spec

/-- `p` and `q` are joined by a path of adjacent pixels all of whose gray values are at
most `l`.  (The empty path joins `p` to itself.) -/
def LConn {α : Type _} (adj : α → α → Prop) (g : α → Nat) (l : Nat) : α → α → Prop :=
  Relation.ReflTransGen (fun a b => adj a b ∧ g a ≤ l ∧ g b ≤ l)

/-- A labelled forest of regions: each pixel carries the region it was assigned to, each
region has a gray level, an optional parent and a recorded size. -/
structure RegionTree (α ι : Type _) where
  /-- the regions that exist -/
  isReg : ι → Prop
  /-- region of a pixel -/
  lab : α → ι
  gray : ι → Nat
  parent : ι → Option ι
  size : ι → Nat

/-- `T.Under r p`: pixel `p` belongs to region `r`, i.e. `r` is the region `p` is labelled with
or one of that region's ancestors. -/
def RegionTree.Under {α ι : Type _} (T : RegionTree α ι) (r : ι) (p : α) : Prop :=
  Relation.ReflTransGen (fun a b => T.parent a = some b) (T.lab p) r

/-- `T` is the component tree of the gray image `g` on the pixels `px` with adjacency `adj`. -/
structure IsComponentTree {α ι : Type _} (adj : α → α → Prop) (g : α → Nat) (px : Finset α)
    (T : RegionTree α ι) : Prop where
  /-- every pixel is labelled with an existing region of its own gray level -/
  lab_reg : ∀ p ∈ px, T.isReg (T.lab p)
  lab_gray : ∀ p ∈ px, T.gray (T.lab p) = g p
  /-- every region is the region of some pixel -/
  reg_lab : ∀ r, T.isReg r → ∃ p ∈ px, T.lab p = r
  /-- parents exist and are brighter -/
  parent_reg : ∀ r, T.isReg r → ∀ r', T.parent r = some r' → T.isReg r' ∧ T.gray r < T.gray r'
  /-- the pixels of a region are exactly one connected component at the region's level -/
  comp : ∀ r, T.isReg r → ∀ p ∈ px, T.Under r p →
    ∀ q ∈ px, (T.Under r q ↔ LConn adj g (T.gray r) p q)
  /-- the recorded size is the number of pixels -/
  size_eq : ∀ r, T.isReg r → ∀ s : Finset α, (∀ p, p ∈ s ↔ p ∈ px ∧ T.Under r p) →
    T.size r = s.card

end Verif.Spec
