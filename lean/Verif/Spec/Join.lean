import Verif.Model.Connect
import Mathlib.Data.Finset.Filter

/-!
# Specification vocabulary for joining trees

Graphs with added adjacencies, patches of a graph, and the shape of the parent links of a forest.
-/

namespace Verif.Connect

open Verif.Spec (IsComponentTree)

variable {ι α : Type}

/-- `x` is reached from `r` by following `k` merged regions and is not merged itself. -/
def Res (F : Forest ι) : Nat → ι → ι → Prop
  | 0, r, x => (F r).merged = false ∧ r = x
  | k + 1, r, x => (F r).merged = true ∧ ∃ r', (F r).parent = some r' ∧ Res F k r' x

/-- Shape of a forest; `m` bounds the length of merged chains. -/
structure Str (isReg : ι → Prop) (gr : ι → Nat) (F : Forest ι) (m : Nat) : Prop where
  gray : ∀ r, (F r).gray = gr r
  gray_lt : ∀ r, isReg r → gr r < 256
  par_reg : ∀ r, isReg r → ∀ r', (F r).parent = some r' → isReg r'
  reg_par : ∀ r r', (F r).parent = some r' → isReg r
  live_lt : ∀ r, isReg r → (F r).merged = false → ∀ r', (F r).parent = some r' → gr r < gr r'
  merged_eq : ∀ r, isReg r → (F r).merged = true → ∃ r', (F r).parent = some r' ∧ gr r' = gr r
  res : ∀ r, isReg r → ∃ k, k ≤ m ∧ ∃ x, Res F k r x

/-- Adjacency with one more pair. -/
def addPair (adj : α → α → Prop) (p q : α) (x y : α) : Prop :=
  adj x y ∨ (x = p ∧ y = q) ∨ (x = q ∧ y = p)

/-- Adjacency with a list of pairs added. -/
def addPairs (adj : α → α → Prop) (l : List (α × α)) (x y : α) : Prop :=
  adj x y ∨ (x, y) ∈ l ∨ (y, x) ∈ l

/-- Adjacency within patch `k`. -/
def inPatch (adj : α → α → Prop) (pof : α → Nat) (k : Nat) (x y : α) : Prop :=
  adj x y ∧ pof x = k ∧ pof y = k

/-- Adjacency within some patch. -/
def samePatch (adj : α → α → Prop) (pof : α → Nat) (x y : α) : Prop := adj x y ∧ pof x = pof y

/-- The patches have been flooded. -/
structure Flooded (adj : α → α → Prop) (g : α → Nat) (px : Finset α) (pof : α → Nat) (K : Nat)
    (P : Nat → PatchTree α) : Prop where
  tree : ∀ k, k < K → IsComponentTree (inPatch adj pof k) g (px.filter (fun p => pof p = k)) (P k).tree
  pof_lt : ∀ p ∈ px, pof p < K
  adj_px : ∀ x y, adj x y → x ∈ px ∧ y ∈ px
  adj_symm : ∀ x y, adj x y → adj y x
  g_lt : ∀ p ∈ px, g p < 256

end Verif.Connect
